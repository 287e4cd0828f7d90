import Verif.Spec.WeakInputs
import Verif.Lemmas.WeakVector
import Verif.Lemmas.WeakProgress

/-!
# Lemmas for C82: programs that read what no thread writes
-/

namespace Vecmem

variable {w : Nat} {I : WImpl w} {m : AMem w} {ro : Nat → Bool}

/-- A thread that is about to access a variable in `ro` is idle if these accesses are left out. -/
def WPhase.without (ro : Nat → Bool) : WPhase w → WPhase w
  | .fencing a c code => if ro a then .idle else .fencing a c code
  | .accessing a c code => if ro a then .idle else .accessing a c code
  | .idle => .idle
  | .leaving => .leaving

/-- The machine without the accesses to variables in `ro`. -/
def WSys.without (ro : Nat → Bool) (s : WSys w) : WSys w := { s with phase := fun i => (s.phase i).without ro, trace := s.trace.elsewhere ro }

theorem without_set (f : Nat → WPhase w) (i : Nat) (p : WPhase w) : (fun j => (WSys.set f i p j).without ro) = WSys.set (fun j => (f j).without ro) i (p.without ro) := by
  funext j
  unfold WSys.set
  split <;> rfl

theorem without_next (code : WCode w) : (WSys.next code).without ro = WSys.next code := by
  unfold WSys.next
  split <;> rfl

theorem elsewhere_snoc (tr : WTrace w) (e : WEvent w) (h : ro e.addr = false) : WTrace.elsewhere ro (tr ++ [e]) = tr.elsewhere ro ++ [e] := by
  simp [WTrace.elsewhere, List.filter_append, h]

theorem elsewhere_snoc_ro (tr : WTrace w) (e : WEvent w) (h : ro e.addr = true) : WTrace.elsewhere ro (tr ++ [e]) = tr.elsewhere ro := by
  simp [WTrace.elsewhere, List.filter_append, h]

theorem without_fence (s : WSys w) (i : Nat) (p : WPhase w) : (s.fence i p).without ro = (s.without ro).fence i (p.without ro) := by
  simp only [WSys.without, WSys.fence, without_set]

/-- Steps that make an access to another variable are steps of the machine without. -/
theorem step_without {s s' : WSys w} {e : WEvent w} (hs : s.Step I s') (ht : s'.trace = s.trace ++ [e]) (he : ro e.addr = false) :
    (s.without ro).Step I (s'.without ro) := by
  have nil : ∀ l : WTrace w, l ≠ l ++ [e] := fun l h => by have := congrArg List.length h; simp at this
  have ph : ∀ {i a c code}, s.phase i = .accessing a c code → ro a = false → (s.without ro).phase i = .accessing a c code := by
    intro i a c code h ha
    simp only [WSys.without, h, WPhase.without, ha]
    rfl
  cases hs with
  | call i a c code h1 h2 => exact absurd ht (nil _)
  | fence i a c code h1 => exact absurd ht (nil _)
  | leave i h1 => exact absurd ht (nil _)
  | load i a t c code acq msg h1 h2 h3 h4 =>
    cases (List.append_cancel_left ht)
    have : (s.readAt i a t msg acq c (WSys.next code)).without ro = (s.without ro).readAt i a t msg acq c (WSys.next code) := by
      simp only [WSys.without, WSys.readAt, without_set, without_next, elsewhere_snoc _ _ he]
    rw [this]
    exact .load _ i a t c code acq msg (ph h1 he) h2 h3 h4
  | store i a t c code x rel h1 h2 h3 h4 =>
    cases (List.append_cancel_left ht)
    have : (s.writeAt i a t x rel c (WSys.next code)).without ro = (s.without ro).writeAt i a t x rel c (WSys.next code) := by
      simp only [WSys.without, WSys.writeAt, without_set, without_next, elsewhere_snoc _ _ he]
    rw [this]
    exact .store _ i a t c code x rel (ph h1 he) h2 h3 h4
  | update i a t c code f acq rel acqF msg x h1 h2 h3 h4 h5 h6 =>
    cases (List.append_cancel_left ht)
    have : (s.updateAt i a t msg x acq rel c (WSys.next code)).without ro = (s.without ro).updateAt i a t msg x acq rel c (WSys.next code) := by
      simp only [WSys.without, WSys.updateAt, without_set, without_next, elsewhere_snoc _ _ he]
    rw [this]
    exact .update _ i a t c code f acq rel acqF msg x (ph h1 he) h2 h3 h4 h5 h6
  | keep i a t c code f acq rel acqF msg h1 h2 h3 h4 h5 =>
    cases (List.append_cancel_left ht)
    have : (s.readAt i a t msg acqF c (WSys.next code)).without ro = (s.without ro).readAt i a t msg acqF c (WSys.next code) := by
      simp only [WSys.without, WSys.readAt, without_set, without_next, elsewhere_snoc _ _ he]
    rw [this]
    exact .keep _ i a t c code f acq rel acqF msg (ph h1 he) h2 h3 h4 h5
  | plainLoad i a t c code msg h1 h2 h3 h4 =>
    cases (List.append_cancel_left ht)
    have : (s.plainReadAt i a t msg c (WSys.next code)).without ro = (s.without ro).plainReadAt i a t msg c (WSys.next code) := by
      simp only [WSys.without, WSys.plainReadAt, without_set, without_next, elsewhere_snoc _ _ he]
    rw [this]
    exact .plainLoad _ i a t c code msg (ph h1 he) h2 h3 h4
  | plainStore i a t c code x h1 h2 h3 h4 =>
    cases (List.append_cancel_left ht)
    have : (s.plainWriteAt i a t x c (WSys.next code)).without ro = (s.without ro).plainWriteAt i a t x c (WSys.next code) := by
      simp only [WSys.without, WSys.plainWriteAt, without_set, without_next, elsewhere_snoc _ _ he]
    rw [this]
    exact .plainStore _ i a t c code x (ph h1 he) h2 h3 h4

/-- Threads have a fence in front of them only if the operation has one. -/
theorem fencing_before {s : WSys w} (h : WSys.Reach I m s) : ∀ i a c code, s.phase i = .fencing a c code → code.before = true := by
  induction h with
  | start => intro i a c code h; cases h
  | @step s s' _ hs ih =>
    have key : ∀ (j : Nat) (p : WPhase w), (∀ a c code, p = .fencing a c code → code.before = true) →
        ∀ i a c code, WSys.set s.phase j p i = .fencing a c code → code.before = true := by
      intro j p hp i a c code h
      unfold WSys.set at h
      split at h
      · exact hp a c code h
      · exact ih i a c code h
    have hnext : ∀ (code : WCode w) a c code', WSys.next code = .fencing a c code' → code'.before = true := by
      intro code a c code' h
      unfold WSys.next at h
      split at h <;> cases h
    cases hs with
    | call i a c code h1 h2 =>
      refine key i _ fun a' c' code' h => ?_
      split at h
      · cases h; assumption
      · cases h
    | fence i a c code h1 => exact key i _ fun a' c' code' h => by cases h
    | leave i h1 => exact key i _ fun a' c' code' h => by cases h
    | load i a t c code acq msg h1 h2 h3 h4 => exact key i _ (hnext code)
    | store i a t c code x rel h1 h2 h3 h4 => exact key i _ (hnext code)
    | update i a t c code f acq rel acqF msg x h1 h2 h3 h4 h5 h6 => exact key i _ (hnext code)
    | keep i a t c code f acq rel acqF msg h1 h2 h3 h4 h5 => exact key i _ (hnext code)
    | plainLoad i a t c code msg h1 h2 h3 h4 => exact key i _ (hnext code)
    | plainStore i a t c code x h1 h2 h3 h4 => exact key i _ (hnext code)

theorem join_one_zero (f : Front) (a : Nat) : f.join (Front.one a 0) = f := by
  funext b
  simp [Front.join, Front.one]

theorem set_self {α : Type} (f : Nat → α) (i : Nat) : WSys.set f i (f i) = f := by
  funext j
  unfold WSys.set
  split
  · next h => rw [h]
  · rfl

theorem plain_read (hI : I = posixWeak ∨ I = cudaWeak ∨ I = syclWeak ∨ I = syclBuiltinWeak) : I .read = some ⟨false, .plainLoad, false⟩ := by
  rcases hI with rfl | rfl | rfl | rfl <;> rfl

/-- The run without the reads of variables in `ro`; no value but the initial one is there to be read. -/
theorem reach_given (hI : I = posixWeak ∨ I = cudaWeak ∨ I = syclWeak ∨ I = syclBuiltinWeak) {progs : Nat → WProg w} (hro : ∀ i, (progs i).OnlyReads ro) {s : WRun w}
    (h : WRun.Reach I m progs s) :
    WRun.Reach I m (fun i => (progs i).given ro m) ⟨s.sys.without ro, fun i => (s.prog i).given ro m⟩ ∧ (∀ i, (s.prog i).OnlyReads ro) ∧
    ∀ a, ro a = true → ∀ t x, s.sys.mem a t = some x → t = 0 ∧ x.val = m a := by
  have hrd := plain_read (w := w) hI
  induction h with
  | start =>
    refine ⟨.start, hro, fun a ha t x hx => ?_⟩
    simp only [WSys.start] at hx
    split at hx
    · cases hx
      exact ⟨by assumption, rfl⟩
    · cases hx
  | @step s s' hr hs ih =>
    obtain ⟨ih1, ih2, ih3⟩ := ih
    have hread : ∀ i a c, WRun.Doing s.sys i a c → ro a = true → c = .read := by
      intro i a c hd ha
      obtain ⟨next, hn⟩ := hr.doing i a c hd
      have := ih2 i
      rw [hn] at this
      exact this.1 ha
    cases hs with
    | quiet s1 h1 h2 h3 =>
      have hd : ∀ i a c, WRun.Doing (s1.without ro) i a c → ∃ next, (fun i => (s.prog i).given ro m) i = .act a c next := by
        intro i a c ⟨code, hd⟩
        have : WRun.Doing s1 i a c ∧ ro a = false := by
          simp only [WSys.without] at hd
          cases hp : s1.phase i with
          | idle => rw [hp] at hd; rcases hd with hd | hd <;> cases hd
          | leaving => rw [hp] at hd; rcases hd with hd | hd <;> cases hd
          | fencing a' c' code' =>
            rw [hp] at hd
            simp only [WPhase.without] at hd
            by_cases hra : ro a' = true
            · rw [if_pos hra] at hd
              rcases hd with hd | hd <;> cases hd
            · rw [if_neg hra] at hd
              rcases hd with hd | hd <;> cases hd
              exact ⟨⟨code, .inl hp⟩, by simpa using hra⟩
          | accessing a' c' code' =>
            rw [hp] at hd
            simp only [WPhase.without] at hd
            by_cases hra : ro a' = true
            · rw [if_pos hra] at hd
              rcases hd with hd | hd <;> cases hd
            · rw [if_neg hra] at hd
              rcases hd with hd | hd <;> cases hd
              exact ⟨⟨code, .inr hp⟩, by simpa using hra⟩
        obtain ⟨next, hn⟩ := h3 i a c this.1
        refine ⟨fun r => (next r).given ro m, ?_⟩
        simp only [hn, WProg.given, this.2]
        rfl
      have nil : ∀ (l : WTrace w) (e : WEvent w), l ++ [e] ≠ l := fun l e h => by have := congrArg List.length h; simp at this
      refine ⟨?_, ih2, ?_⟩
      · cases h1 with
        | call i a c code g1 g2 =>
          by_cases ha : ro a = true
          · have e : WSys.without ro { s.sys with phase := WSys.set s.sys.phase i (if code.before then .fencing a c code else .accessing a c code) } = s.sys.without ro := by
              simp only [WSys.without, without_set]
              have : (if code.before = true then WPhase.fencing a c code else WPhase.accessing a c code).without ro = (s.sys.phase i).without ro := by
                rw [g1]
                split <;> simp only [WPhase.without, ha, if_true]
              rw [this]
              congr 1
              exact set_self (fun j => (s.sys.phase j).without ro) i
            dsimp only
            rw [e]
            exact ih1
          · have ha : ro a = false := by simpa using ha
            have e : WSys.without ro { s.sys with phase := WSys.set s.sys.phase i (if code.before then .fencing a c code else .accessing a c code) } =
                { s.sys.without ro with phase := WSys.set (s.sys.without ro).phase i (if code.before then .fencing a c code else .accessing a c code) } := by
              simp only [WSys.without, without_set]
              congr 2
              split <;> simp only [WPhase.without, ha] <;> rfl
            refine ih1.step (.quiet _ _ ?_ rfl hd)
            rw [e]
            exact .call _ i a c code (by simp only [WSys.without, g1, WPhase.without]) g2
        | fence i a c code g1 =>
          have ha : ro a = false := by
            by_contra ha
            have hc := hread i a c ⟨code, .inl g1⟩ (by simpa using ha)
            have hcode := hr.sys.values.code i a c code (.inr g1)
            rw [hc, hrd] at hcode
            have := fencing_before hr.sys i a c code g1
            cases hcode
            cases this
          refine ih1.step (.quiet _ _ ?_ rfl hd)
          rw [without_fence]
          have e : (WPhase.accessing a c code).without ro = .accessing a c code := by simp only [WPhase.without, ha]; rfl
          rw [e]
          exact .fence _ i a c code (by simp only [WSys.without, g1, WPhase.without, ha]; rfl)
        | leave i g1 =>
          refine ih1.step (.quiet _ _ ?_ rfl hd)
          rw [without_fence]
          exact .leave _ i (by simp only [WSys.without, g1, WPhase.without])
        | load i a t c code acq msg g1 g2 g3 g4 => exact absurd h2 (nil _ _)
        | store i a t c code x rel g1 g2 g3 g4 => exact absurd h2 (nil _ _)
        | update i a t c code f acq rel acqF msg x g1 g2 g3 g4 g5 g6 => exact absurd h2 (nil _ _)
        | keep i a t c code f acq rel acqF msg g1 g2 g3 g4 g5 => exact absurd h2 (nil _ _)
        | plainLoad i a t c code msg g1 g2 g3 g4 => exact absurd h2 (nil _ _)
        | plainStore i a t c code x g1 g2 g3 g4 => exact absurd h2 (nil _ _)
      · cases h1 with
        | call i a c code g1 g2 => exact ih3
        | fence i a c code g1 => exact ih3
        | leave i g1 => exact ih3
        | load i a t c code acq msg g1 g2 g3 g4 => exact absurd h2 (nil _ _)
        | store i a t c code x rel g1 g2 g3 g4 => exact absurd h2 (nil _ _)
        | update i a t c code f acq rel acqF msg x g1 g2 g3 g4 g5 g6 => exact absurd h2 (nil _ _)
        | keep i a t c code f acq rel acqF msg g1 g2 g3 g4 g5 => exact absurd h2 (nil _ _)
        | plainLoad i a t c code msg g1 g2 g3 g4 => exact absurd h2 (nil _ _)
        | plainStore i a t c code x g1 g2 g3 g4 => exact absurd h2 (nil _ _)
    | access s1 e next h1 h2 h3 =>
      have hprog : (s.prog e.thread).OnlyReads ro := ih2 _
      rw [h3] at hprog
      have honly : ∀ i, (WSys.set s.prog e.thread (next (e.read.map (·.2))) i).OnlyReads ro := by
        intro i
        unfold WSys.set
        split
        · exact hprog.2 _
        · exact ih2 i
      have hset : (fun i => (WSys.set s.prog e.thread (next (e.read.map (·.2))) i).given ro m) =
          WSys.set (fun i => (s.prog i).given ro m) e.thread ((next (e.read.map (·.2))).given ro m) := by
        funext i
        unfold WSys.set
        split <;> rfl
      refine ⟨?_, honly, ?_⟩
      · by_cases he : ro e.addr = true
        · -- a read of the initial value: nothing happens
          have hc := hprog.1 he
          have hno : ∀ {i a c code}, s.sys.phase i = .accessing a c code → c = e.call → code = ⟨false, .plainLoad, false⟩ := by
            intro i a c code hp hce
            have := hr.sys.values.code i a c code (.inl hp)
            rw [hce, hc, hrd] at this
            exact (Option.some.inj this).symm
          cases h1 with
          | call i a c code g1 g2 => exact absurd h2 (fun h => by have := congrArg List.length h; simp at this)
          | fence i a c code g1 => exact absurd h2 (fun h => by have := congrArg List.length h; simp [WSys.fence] at this)
          | leave i g1 => exact absurd h2 (fun h => by have := congrArg List.length h; simp [WSys.fence] at this)
          | load i a t c code acq msg g1 g2 g3 g4 =>
            cases List.append_cancel_left h2
            rw [hno g1 rfl] at g2
            cases g2
          | store i a t c code x rel g1 g2 g3 g4 =>
            cases List.append_cancel_left h2
            rw [hno g1 rfl] at g2
            cases g2
          | update i a t c code f acq rel acqF msg x g1 g2 g3 g4 g5 g6 =>
            cases List.append_cancel_left h2
            rw [hno g1 rfl] at g2
            cases g2
          | keep i a t c code f acq rel acqF msg g1 g2 g3 g4 g5 =>
            cases List.append_cancel_left h2
            rw [hno g1 rfl] at g2
            cases g2
          | plainStore i a t c code x g1 g2 g3 g4 =>
            cases List.append_cancel_left h2
            rw [hno g1 rfl] at g2
            cases g2
          | plainLoad i a t c code msg g1 g2 g3 g4 =>
            cases List.append_cancel_left h2
            obtain ⟨rfl, hv⟩ := ih3 a he t msg g4
            have hcode := hno g1 rfl
            have e1 : (s.sys.plainReadAt i a 0 msg c (WSys.next code)).without ro = s.sys.without ro := by
              simp only [WSys.without, WSys.plainReadAt, without_set, without_next, join_one_zero, set_self]
              have hph : WSys.next code = (s.sys.phase i).without ro := by
                rw [g1, hcode]
                simp only [WPhase.without]
                rw [if_pos he]
                rfl
              rw [hph, set_self (fun j => (s.sys.phase j).without ro) i]
              congr 1
              exact elsewhere_snoc_ro _ _ he
            have e2 : (next (some (m a))).given ro m = (s.prog i).given ro m := by
              rw [h3]
              simp only [WProg.given]
              rw [if_pos he]
            dsimp only
            rw [hset, e1]
            simp only [Option.map_some, hv, e2]
            rw [set_self (fun i => (s.prog i).given ro m) i]
            exact ih1
        · have he : ro e.addr = false := by simpa using he
          dsimp only
          rw [hset]
          refine ih1.step (.access _ _ e (fun r => (next r).given ro m) (step_without h1 h2 he) ?_ ?_)
          · show s1.trace.elsewhere ro = s.sys.trace.elsewhere ro ++ [e]
            rw [h2, elsewhere_snoc _ _ he]
          · show (s.prog e.thread).given ro m = _
            rw [h3]
            simp only [WProg.given, he]
            rfl
      · intro a ha t x hx
        have hno : ∀ {i b c code}, s.sys.phase i = .accessing b c code → b = a → code = ⟨false, .plainLoad, false⟩ := by
          intro i b c code hp hb
          have hc := hread i b c ⟨code, .inr hp⟩ (hb ▸ ha)
          have := hr.sys.values.code i b c code (.inl hp)
          rw [hc, hrd] at this
          exact (Option.some.inj this).symm
        have hput : ∀ {b t' : Nat} {y : WMsg w}, b ≠ a → WSys.put s.sys.mem b t' y a t = some x → t = 0 ∧ x.val = m a := by
          intro b t' y hb hx
          unfold WSys.put at hx
          rw [if_neg (fun h => hb h.1.symm)] at hx
          exact ih3 a ha t x hx
        cases h1 with
        | call i b c code g1 g2 => exact ih3 a ha t x hx
        | fence i b c code g1 => exact ih3 a ha t x hx
        | leave i g1 => exact ih3 a ha t x hx
        | load i b t' c code acq msg g1 g2 g3 g4 => exact ih3 a ha t x hx
        | keep i b t' c code f acq rel acqF msg g1 g2 g3 g4 g5 => exact ih3 a ha t x hx
        | plainLoad i b t' c code msg g1 g2 g3 g4 => exact ih3 a ha t x hx
        | store i b t' c code y rel g1 g2 g3 g4 => exact hput (fun hb => by rw [hno g1 hb] at g2; cases g2) hx
        | update i b t' c code f acq rel acqF msg y g1 g2 g3 g4 g5 g6 => exact hput (fun hb => by rw [hno g1 hb] at g2; cases g2) hx
        | plainStore i b t' c code y g1 g2 g3 g4 => exact hput (fun hb => by rw [hno g1 hb] at g2; cases g2) hx

end Vecmem
