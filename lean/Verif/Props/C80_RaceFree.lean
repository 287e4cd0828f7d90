import Verif.Lemmas.RaceFree
import Verif.Props.C76_WeakVector

/-!
# C80: threads that do not race do on weak memory what they do alone

Vocabulary: `Verif/Spec/RaceFree.lean` (`WProg.solo`, `RaceFree`), `Verif/Spec/WeakVector.lean` (`WTrace.Final`), `Verif/Spec/WeakMemory.lean`.
-/

namespace Vecmem.Props

open Vecmem

variable {w : Nat} {I : WImpl w} {m : AMem w} {progs : Nat → WProg w} {s : WRun w}

/-- C80: if no thread accesses what another one writes, then, on a memory in which threads may read old values, each thread makes the accesses, with the values read and written, that it makes when it
runs alone: those so far, in the middle of the execution; and all of them if it has ended.  An assertion fails only if it fails then. -/
theorem c80_alone (hI : I = posixWeak ∨ I = cudaWeak ∨ I = syclWeak ∨ I = syclBuiltinWeak) (hr : RaceFree m progs) (h : WRun.Reach I m progs s) (i : Nat) :
    (∃ rest, ((progs i).solo m).1 = (s.sys.trace.of i).map WEvent.solo ++ rest) ∧
    (s.prog i = .done → ((progs i).solo m).1 = (s.sys.trace.of i).map WEvent.solo ∧ ((progs i).solo m).2.2 = true) ∧
    (s.prog i = .failed → ((progs i).solo m).1 = (s.sys.trace.of i).map WEvent.solo ∧ ((progs i).solo m).2.2 = false) := by
  obtain ⟨σ, hσ, -⟩ := solo_inv hI hr h i
  refine ⟨⟨_, congrArg (·.1) hσ.total⟩, fun hd => ?_, fun hd => ?_⟩
  · rw [hd] at hσ
    rw [hσ.total]
    exact ⟨List.append_nil _, rfl⟩
  · rw [hd] at hσ
    rw [hσ.total]
    exact ⟨List.append_nil _, rfl⟩

/-- What a thread has written is in the end as it left it, and what no thread has written is as it was. -/
theorem c80_final (hI : I = posixWeak ∨ I = cudaWeak ∨ I = syclWeak ∨ I = syclBuiltinWeak) (hr : RaceFree m progs) (h : WRun.Reach I m progs s)
    (hd : ∀ i, s.prog i = .done) :
    (∀ i, ∀ x ∈ ((progs i).solo m).1, x.wrote.isSome → s.sys.trace.Final m x.addr (((progs i).solo m).2.1 x.addr)) ∧
    ∀ a, (∀ i, ∀ x ∈ ((progs i).solo m).1, x.addr = a → x.wrote = none) → s.sys.trace.Final m a (m a) := by
  have hmem : ∀ e ∈ s.sys.trace, e.solo ∈ ((progs e.thread).solo m).1 := by
    intro e he
    rw [((c80_alone hI hr h e.thread).2.1 (hd _)).1]
    exact List.mem_map_of_mem (List.mem_filter.2 ⟨he, by simp⟩)
  refine ⟨fun i x hx hw => ?_, fun a ha => .inl ⟨rfl, fun e he hea => ?_⟩⟩
  · obtain ⟨σ, hσ, hf⟩ := solo_inv hI hr h i
    rw [hd i] at hσ
    have hσ' : ((progs i).solo m).2.1 = σ := by rw [hσ.total]; rfl
    rw [hσ']
    have honly : ∀ f ∈ s.sys.trace, f.addr = x.addr → f.thread = i := by
      intro f hfm hfa
      by_contra hne
      exact hr i f.thread (Ne.symm hne) x hx hw f.solo (hmem f hfm) hfa
    have hin : ∀ f ∈ s.sys.trace, f.addr = x.addr → f ∈ s.sys.trace.of i := fun f h1 h2 => List.mem_filter.2 ⟨h1, by simpa using honly f h1 h2⟩
    rcases hf x.addr with ⟨h1, h2⟩ | ⟨g, t, h1, h2, h3, h4⟩
    · exact .inl ⟨h1, fun e he hea => h2 e (hin e he hea) hea⟩
    · exact .inr ⟨g, t, (List.mem_filter.1 h1).1, h2, h3, fun f hf hfa => h4 f (hin f hf hfa) hfa⟩
  · have := ha e.thread e.solo (hmem e he) hea
    simpa [WEvent.solo] using this

/-- The memory after threads that do not race have run one after the other. -/
theorem oneByOne_at (hr : RaceFree m progs) {order : List Nat} (hn : order.Nodup) :
    (∀ i ∈ order, ∀ x ∈ ((progs i).solo m).1, x.wrote.isSome → oneByOne progs order m x.addr = ((progs i).solo m).2.1 x.addr) ∧
    ∀ a, (∀ i ∈ order, ∀ x ∈ ((progs i).solo m).1, x.addr = a → x.wrote = none) → oneByOne progs order m a = m a := by
  induction order using List.reverseRecOn with
  | nil => exact ⟨fun i hi => by simp at hi, fun _ _ => rfl⟩
  | append_singleton l j ih =>
    obtain ⟨n1, -, n3⟩ := List.nodup_append.1 hn
    obtain ⟨i1, i2⟩ := ih n1
    have hne : ∀ i ∈ l, i ≠ j := fun i hi => n3 i hi j (by simp)
    have hstep : oneByOne progs (l ++ [j]) m = ((progs j).solo (oneByOne progs l m)).2.1 := by simp [oneByOne]
    have hsame : ∀ x ∈ ((progs j).solo m).1, oneByOne progs l m x.addr = m x.addr := by
      intro x hx
      refine i2 _ fun i hi y hy hya => ?_
      cases hw : y.wrote with
      | none => rfl
      | some _ => exact absurd hya.symm (hr i j (hne i hi) y hy (by rw [hw]; rfl) x hx)
    obtain ⟨-, -, c3, c4⟩ := solo_congr hsame
    rw [hstep]
    refine ⟨fun i hi x hx hw => ?_, fun a ha => ?_⟩
    · rcases List.mem_append.1 hi with hi | hi
      · rw [c4 x.addr fun y hy hya => absurd hya (hr i j (hne i hi) x hx hw y hy)]
        exact i1 i hi x hx hw
      · cases List.mem_singleton.1 hi
        exact c3 x hx hw
    · rw [c4 a (ha j (by simp))]
      exact i2 a fun i hi => ha i (List.mem_append_left _ hi)

/-- C80: and in the end, the variables have the values that they have if the threads run one after the other, in any order. -/
theorem c80_one_by_one (hI : I = posixWeak ∨ I = cudaWeak ∨ I = syclWeak ∨ I = syclBuiltinWeak) (hr : RaceFree m progs) (h : WRun.Reach I m progs s)
    (hd : ∀ i, s.prog i = .done) {n : Nat} (hn : ∀ i, n ≤ i → progs i = .done) {order : List Nat} (ho : order.Perm (List.range n)) (a : Nat) (x : BitVec w) :
    s.sys.trace.Final m a x ↔ x = oneByOne progs order m a := by
  obtain ⟨f1, f2⟩ := c80_final hI hr h hd
  obtain ⟨o1, o2⟩ := oneByOne_at hr (ho.nodup_iff.2 List.nodup_range)
  have key : s.sys.trace.Final m a (oneByOne progs order m a) := by
    by_cases hw : ∃ i, ∃ y ∈ ((progs i).solo m).1, y.addr = a ∧ y.wrote.isSome
    · obtain ⟨i, y, hy, rfl, hyw⟩ := hw
      have hi : i ∈ order := by
        rw [ho.mem_iff, List.mem_range]
        by_contra hc
        rw [hn i (by omega)] at hy
        cases hy
      rw [o1 i hi y hy hyw]
      exact f1 i y hy hyw
    · have hno : ∀ i, ∀ y ∈ ((progs i).solo m).1, y.addr = a → y.wrote = none := by
        intro i y hy hya
        cases hyw : y.wrote with
        | none => rfl
        | some _ => exact absurd ⟨i, y, hy, hya, by rw [hyw]; rfl⟩ hw
      rw [o2 a fun i _ => hno i]
      exact f2 a hno
  constructor
  · intro hx
    exact c76_final_unique h.sys.values.writes hx key
  · rintro rfl
    exact key

/-- C80: such threads can always go on to their ends: every execution can be continued until all threads have ended, and no assertion has failed if none fails alone. -/
theorem c80_ends (hI : I = posixWeak ∨ I = cudaWeak ∨ I = syclWeak ∨ I = syclBuiltinWeak) (hr : RaceFree m progs) (h : WRun.Reach I m progs s)
    (ha : ∀ i, (progs i).Defined I) (hf : ∀ i, ((progs i).solo m).2.2 = true) {n : Nat} (hn : ∀ i, n ≤ i → progs i = .done) :
    ∃ s', Relation.ReflTransGen (WRun.Step I) s s' ∧ ∀ i, s'.prog i = .done := by
  obtain ⟨s', h1, h2⟩ := h.finishAll ha (n := n) fun i hi => .inl (by
    have := h.after i
    rw [hn i hi] at this
    cases htr : s.sys.trace.own i with
    | nil => rw [htr] at this; simpa [WProg.after] using this.symm
    | cons x l => rw [htr] at this; cases this)
  refine ⟨s', h1, fun i => (h2 i).resolve_right fun hc => ?_⟩
  have := ((c80_alone hI hr (h.steps h1) i).2.2 hc).2
  rw [hf i] at this
  cases this

/-- A thread that passes a value on from variable 0 to variable 1, and a thread that counts in variable 2. -/
def demoFree : Nat → WProg 8
  | 0 => .act 0 .read fun r => .act 1 (.write (r.getD 0 + 1)) fun _ => .act 1 .read fun r => .act 1 (.write (2 * r.getD 0)) fun _ => .done
  | 1 => .act 2 (.atomic (.fetchAdd 1) none) fun r => if r = some 4 then .act 0 .read fun _ => .done else .failed
  | _ => .done

/-- The hypotheses are met: the second thread reads what the first one reads, too, and runs into no assertion. -/
example : RaceFree (fun _ => 4) demoFree ∧ (∀ i, (demoFree i).Defined cudaWeak) ∧ (∀ i, ((demoFree i).solo fun _ => 4).2.2 = true) ∧
    (∀ i, 2 ≤ i → demoFree i = .done) ∧ oneByOne demoFree [1, 0] (fun _ => 4) 1 = 10 ∧ oneByOne demoFree [1, 0] (fun _ => 4) 2 = 5 := by
  have hs : ∀ i, ((demoFree i).solo fun _ => 4) = match i with
      | 0 => ([⟨0, some 4, none⟩, ⟨1, none, some 5⟩, ⟨1, some 5, none⟩, ⟨1, none, some 10⟩], ((demoFree 0).solo fun _ => 4).2.1, true)
      | 1 => ([⟨2, some 4, some 5⟩, ⟨0, some 4, none⟩], ((demoFree 1).solo fun _ => 4).2.1, true)
      | _ => ([], fun _ => 4, true) := by
    intro i
    match i with
    | 0 => rfl
    | 1 => rfl
    | _ + 2 => rfl
  refine ⟨?_, ?_, ?_, ?_, by decide, by decide⟩
  · intro i j hij x hx hw y hy
    rw [hs] at hx hy
    match i, j, hij with
    | 0, 0, h => exact absurd rfl h
    | 1, 1, h => exact absurd rfl h
    | 0, 1, _ =>
      simp only [List.mem_cons, List.not_mem_nil, or_false] at hx hy
      rcases hx with rfl | rfl | rfl | rfl <;> rcases hy with rfl | rfl <;> simp at hw ⊢
    | 1, 0, _ =>
      simp only [List.mem_cons, List.not_mem_nil, or_false] at hx hy
      rcases hx with rfl | rfl <;> rcases hy with rfl | rfl | rfl | rfl <;> simp at hw ⊢
    | _ + 2, _, _ => cases hx
    | 0, _ + 2, _ => cases hy
    | 1, _ + 2, _ => cases hy
  · intro i
    match i with
    | 0 => refine ⟨rfl, fun r => ⟨rfl, fun r => ⟨rfl, fun r => ⟨rfl, fun r => trivial⟩⟩⟩⟩
    | 1 =>
      refine ⟨rfl, fun r => ?_⟩
      beta_reduce
      split
      · exact ⟨rfl, fun r => trivial⟩
      · trivial
    | _ + 2 => trivial
  · intro i
    rw [hs]
    match i with
    | 0 => rfl
    | 1 => rfl
    | _ + 2 => rfl
  · intro i hi
    match i, hi with
    | _ + 2, _ => rfl

end Vecmem.Props
