import Verif.Lemmas.Copy

/-! # Lemmas about copies of jagged vectors -/

namespace Vecmem

open IntMath Prog

/-- What `copy_view_impl` does for jagged vectors. -/
theorem copyViewJag_does (dbg : Bool) (m : Mem) (t : Nat) (ht : 0 < t) (src dst : JagView) (hs : JagValid m t src.views)
    (hd : JagValid m t dst.views) (hsep : ∀ x, ¬ (JagHas t src.views x ∧ JagHas t dst.views x))
    (hl : src.views.length = dst.views.length) :
    ((∃ (i : Nat) (v w : View), src.views[i]? = some v ∧ dst.views[i]? = some w ∧ w.capacity < v.len m) ∧
      (copyViewJag dbg t src dst).Does m .lengthError m) ∨
    ∃ b m', (copyViewJag dbg t src dst).Does m (.ok b) m' ∧
      (∀ (i : Nat) (v w : View), src.views[i]? = some v → dst.views[i]? = some w →
        v.len m ≤ w.capacity ∧ v.HoldsRow m m' t w) ∧
      ∀ x, ¬ JagHas t dst.views x → m' x = m x := by
  obtain ⟨svs, sp, shp⟩ := src
  obtain ⟨dvs, dp, dhp⟩ := dst
  simp only at hs hd hsep hl ⊢
  by_cases h0 : svs.length = 0
  · refine .inr ⟨false, m, ?_, ?_, fun _ _ => rfl⟩
    · have : (copyViewJag dbg t ⟨svs, sp, shp⟩ ⟨dvs, dp, dhp⟩).Does m (.ok false) m := by
        unfold copyViewJag
        simp only
        rw [if_neg (by omega), if_pos h0]
        exact does_ret _ _
      exact this
    · intro i v w hv
      rw [List.length_eq_zero_iff] at h0
      subst h0
      simp at hv
  · have hlen : dvs.length = (svs.map (·.len m)).length := by simp [hl]
    have htake : dvs.take svs.length = dvs := List.take_of_length_le (by omega)
    have hTL : TooLarge dvs (svs.map (·.len m)) ↔
        ∃ (i : Nat) (v w : View), svs[i]? = some v ∧ dvs[i]? = some w ∧ w.capacity < v.len m := by
      constructor
      · rintro ⟨i, w, n, h1, h2, h3⟩
        rw [List.getElem?_map, Option.map_eq_some_iff] at h2
        obtain ⟨v, hv, rfl⟩ := h2
        exact ⟨i, v, w, hv, h1, h3⟩
      · rintro ⟨i, v, w, h1, h2, h3⟩
        exact ⟨i, w, _, h2, by rw [List.getElem?_map, h1]; rfl, h3⟩
    by_cases htl : TooLarge dvs (svs.map (·.len m))
    · refine .inl ⟨hTL.1 htl, ?_⟩
      have : (copyViewJag dbg t ⟨svs, sp, shp⟩ ⟨dvs, dp, dhp⟩).Does m .lengthError m := by
        unfold copyViewJag
        simp only
        rw [if_neg (by omega), if_neg h0]
        refine (getSizes_does hs).bind fun L d => ?_
        obtain ⟨d', e⟩ := setSizes_large (m := m) hlen hd.words htl L.length (L ++ [Local.uints (svs.map (·.len m))]) d
        exact ⟨d', run_scope (run_bind_err e (fun _ => by simp) (fun _ => true)) (by simp)⟩
      exact this
    · right
      have h32 : ∀ n ∈ svs.map (·.len m), n < 2 ^ 32 := by
        intro n hn
        obtain ⟨v, hv, rfl⟩ := List.mem_map.1 hn
        exact View.len_lt (hs.inner v hv)
      obtain ⟨hset1, hset2⟩ := sizesSet_spec (m := m) hlen hd.words h32
      have hcap : ∀ (i : Nat) (v w : View), svs[i]? = some v → dvs[i]? = some w → v.len m ≤ w.capacity := by
        intro i v w hv hw
        by_contra hc
        exact htl (hTL.2 ⟨i, v, w, hv, hw, by omega⟩)
      have hpair : dvs.Pairwise (fun v w => ∀ x, ¬ (v.HasPayload t x ∧ w.HasPayload t x)) :=
        hd.separate.imp fun h x hx => h x ⟨.inl hx.1, .inl hx.2⟩
      have hsd : ∀ v ∈ svs, ∀ w ∈ dvs, ∀ x, ¬ (v.HasPayload t x ∧ w.HasPayload t x) :=
        fun v hv w hw x hx => hsep x ⟨⟨v, hv, .inl hx.1⟩, ⟨w, hw, .inl hx.2⟩⟩
      -- the copy of the payload
      obtain ⟨ns, m', hdoes, hrows, hns⟩ : ∃ ns m',
          (if isContiguous t svs && isContiguous t dvs && (svs.map (·.capacity) == dvs.map (·.capacity)) then
            copyContiguous dbg t (svs.map (·.capacity)) svs dvs
          else copyViews dbg t (svs.map (·.len m)) svs dvs).Does (sizesSet m dvs (svs.map (·.len m))) (.ok ()) m' ∧
          CopiedRows (sizesSet m dvs (svs.map (·.len m))) m' t ns svs dvs ∧
          ∀ (i : Nat) (v w : View), svs[i]? = some v → dvs[i]? = some w →
            ∃ n, ns[i]? = some n ∧ v.len m ≤ n ∧ n ≤ v.capacity ∧ n ≤ w.capacity := by
        split
        · rename_i hcc
          simp only [Bool.and_eq_true, beq_iff_eq] at hcc
          obtain ⟨⟨c1, c2⟩, c3⟩ := hcc
          refine ⟨svs.map (·.capacity), ?_⟩
          cases svs with
          | nil => exact absurd rfl h0
          | cons v svs =>
            cases dvs with
            | nil => simp at hl
            | cons w dvs =>
              have ch1 := chain_of_contiguous c1
              have ch2 := chain_of_contiguous c2
              have hspace : ((v :: svs).map (·.capacity)).sum ≠ 0 →
                  v.ptr + ((v :: svs).map (·.capacity)).sum * t ≤ 2 ^ 64 :=
                chain_space ch1 fun u hu => (hs.inner u hu).space
              have hne : ((v :: svs).map (·.capacity)).sum ≠ 0 → v.ptr ≠ 0 := by
                intro hsum hv0
                obtain ⟨u, hu, p1, p2⟩ := chain_covers (x := v.ptr) ch1 (Nat.le_refl _)
                  (by have := Nat.mul_pos (Nat.pos_of_ne_zero hsum) ht; omega)
                have hcu : u.capacity ≠ 0 := fun h => by rw [h] at p2; omega
                exact (hs.inner u hu).ptr hcu (by omega)
              have htot : wrap64 (wrap64 ((v :: svs).map (·.capacity)).sum * t) = ((v :: svs).map (·.capacity)).sum * t := by
                by_cases hsum : ((v :: svs).map (·.capacity)).sum = 0
                · rw [hsum]; simp [wrap64]
                · have h1 := hspace hsum
                  have h2 := hne hsum
                  have h3 : ((v :: svs).map (·.capacity)).sum ≤ ((v :: svs).map (·.capacity)).sum * t :=
                    Nat.le_mul_of_pos_right _ ht
                  have h4 : wrap64 ((v :: svs).map (·.capacity)).sum = ((v :: svs).map (·.capacity)).sum := by
                    unfold wrap64; exact Nat.mod_eq_of_lt (by omega)
                  rw [h4]
                  unfold wrap64
                  exact Nat.mod_eq_of_lt (by omega)
              have hno : ¬ overlap (((v :: svs).map (·.capacity)).sum * t) v.ptr w.ptr := by
                refine not_overlap_of hsep (fun x a b => ?_) (fun x a b => ?_)
                · obtain ⟨u, hu, hp⟩ := chain_covers ch1 a b
                  exact ⟨u, hu, .inl hp⟩
                · rw [c3] at b
                  obtain ⟨u, hu, hp⟩ := chain_covers ch2 a b
                  exact ⟨u, hu, .inl hp⟩
              have hdo := copyFirst_does dbg (v :: svs) (w :: dvs) (sizesSet m (w :: dvs) ((v :: svs).map (·.len m))) v.ptr
                w.ptr ch1 ch2 c3 (by
                  intro u hu
                  rcases List.mem_append.1 hu with hu | hu
                  · exact (hs.inner u hu).ptr
                  · exact (hd.inner u hu).ptr) rfl hno
              refine ⟨_, by rw [copyContiguous, htot]; exact hdo, ?_, ?_⟩
              · have hcop := copied_of_chain ch1 ch2 c3 (sizesSet m (w :: dvs) ((v :: svs).map (·.len m)))
                split
                · rename_i hsum
                  rw [hsum, Nat.zero_mul] at hcop
                  have : memCopy (sizesSet m (w :: dvs) ((v :: svs).map (·.len m))) w.ptr v.ptr 0 =
                      sizesSet m (w :: dvs) ((v :: svs).map (·.len m)) := by
                    funext x
                    unfold memCopy
                    rw [if_neg (by omega)]
                  rw [this] at hcop
                  exact hcop
                · exact hcop
              · intro i a b ha hb
                have e1 : ((v :: svs).map (·.capacity))[i]? = some a.capacity := by rw [List.getElem?_map, ha]; rfl
                have e2 : ((w :: dvs).map (·.capacity))[i]? = some b.capacity := by rw [List.getElem?_map, hb]; rfl
                rw [c3, e2] at e1
                have e3 : b.capacity = a.capacity := by simpa using e1
                refine ⟨a.capacity, by rw [List.getElem?_map, ha]; rfl, ?_, Nat.le_refl _, by omega⟩
                exact (hs.inner a (List.mem_iff_getElem?.2 ⟨i, ha⟩)).len
        · obtain ⟨m', d1, d2⟩ := copyViews_does dbg (t := t) (svs.map (·.len m)) svs dvs (sizesSet m dvs (svs.map (·.len m)))
            (by simp) (by simp [hl]) (by
              intro i n v w hn hv hw
              rw [List.getElem?_map, hv] at hn
              simp only [Option.map_some, Option.some.injEq] at hn
              subst hn
              have hvv := hs.inner v (List.mem_iff_getElem?.2 ⟨i, hv⟩)
              have hww := hd.inner w (List.mem_iff_getElem?.2 ⟨i, hw⟩)
              have hc := hcap i v w hv hw
              have := hvv.len
              exact ⟨hvv.len, hc, hvv.wrap hvv.len, fun hne => ⟨hvv.ptr (by omega), hww.ptr (by omega)⟩⟩) hpair hsd
          refine ⟨_, m', d1, d2, fun i v w hv hw => ⟨v.len m, by rw [List.getElem?_map, hv]; rfl, Nat.le_refl _, ?_, ?_⟩⟩
          · exact (hs.inner v (List.mem_iff_getElem?.2 ⟨i, hv⟩)).len
          · exact hcap i v w hv hw
      -- the outcome
      have hrun : (copyViewJag dbg t ⟨svs, sp, shp⟩ ⟨dvs, dp, dhp⟩).Does m (.ok true) m' := by
        unfold copyViewJag
        simp only
        rw [if_neg (by omega), if_neg h0]
        refine (getSizes_does hs).bind fun L d => ?_
        obtain ⟨e, d1, e1⟩ := setSizes_ok (m := m) hlen hd.words hd.count htl L d
        obtain ⟨d2, e2⟩ := hdoes (L ++ [Local.uints (svs.map (·.len m))]) d1
        rw [htake]
        refine ⟨d2, run_scope (l' := Local.uints (svs.map (·.len m))) ?_ (by simp)⟩
        rw [run_bind_ok e1, run_bind_ok e2]
        rfl
      refine ⟨true, m', hrun, ?_, ?_⟩
      · -- bytes of the target outside of the copied rows
        obtain ⟨hr1, hr2⟩ := hrows
        intro i v w hv hw
        obtain ⟨n, hn, n1, n2, n3⟩ := hns i v w hv hw
        have hvm : v ∈ svs := List.mem_iff_getElem?.2 ⟨i, hv⟩
        have hwm : w ∈ dvs := List.mem_iff_getElem?.2 ⟨i, hw⟩
        have hvv := hs.inner v hvm
        have hww := hd.inner w hwm
        have hbytes : ∀ q, q < v.len m * t → m' (w.ptr + q) = m (v.ptr + q) := by
          intro q hq
          have h1 := Nat.mul_le_mul_right t n1
          have h2 := Nat.mul_le_mul_right t n2
          rw [hr1 i n v w hn hv hw q (by omega)]
          refine hset2 _ fun u hu hx => ?_
          exact hsep _ ⟨⟨v, hvm, .inl ⟨by omega, by omega⟩⟩, ⟨u, hu, .inr hx⟩⟩
        have hword : w.sizePtr ≠ 0 → w.len m' = v.len m := by
          intro hne
          rw [← hset1 i w (v.len m) hw (by rw [List.getElem?_map, hv]; rfl) hne]
          refine len_of_word fun x hx => hr2 x fun k c u hc hu hin => ?_
          have huv : k < svs.length := by
            obtain ⟨hk, -⟩ := List.getElem?_eq_some_iff.1 hu
            omega
          obtain ⟨c', hc', -, -, c3⟩ := hns k _ u (List.getElem?_eq_getElem huv) hu
          rw [hc] at hc'
          cases hc'
          have h3 := Nat.mul_le_mul_right t c3
          have hup : u.HasPayload t x := ⟨hin.1, by omega⟩
          by_cases hki : k = i
          · subst hki
            rw [hw] at hu
            cases hu
            exact hww.apart x ⟨hup, hx⟩
          · obtain ⟨hk', ek⟩ := List.getElem?_eq_some_iff.1 hu
            obtain ⟨hi', ei⟩ := List.getElem?_eq_some_iff.1 hw
            subst ek ei
            rcases Nat.lt_or_gt_of_ne hki with hlt | hlt
            · exact List.pairwise_iff_getElem.1 hd.separate k i hk' hi' hlt x ⟨.inl hup, .inr hx⟩
            · exact List.pairwise_iff_getElem.1 hd.separate i k hi' hk' hlt x ⟨.inr hx, .inl hup⟩
        have hel : ∀ q, q < v.len m → bytesAt m' (w.ptr + q * t) t = bytesAt m (v.ptr + q * t) t := by
          intro q hq
          refine bytesAt_congr fun z hz => ?_
          have : (q + 1) * t ≤ v.len m * t := Nat.mul_le_mul_right t hq
          rw [Nat.succ_mul] at this
          rw [Nat.add_assoc, Nat.add_assoc]
          exact hbytes _ (by omega)
        refine ⟨by omega, ?_⟩
        unfold View.HoldsRow
        split
        · rename_i hz
          have hwl : w.len m' = w.capacity := by simp [View.len, hz]
          have hle : v.len m ≤ w.capacity := by omega
          rw [List.prefix_iff_getElem?]
          intro q hq
          have hq' : q < v.len m := by simpa [View.elems] using hq
          simp only [View.elems, hwl, List.getElem?_map, List.getElem_map, List.getElem_range]
          rw [List.getElem?_range (by omega)]
          simp only [Option.map_some, hel q hq']
        · rename_i hz
          unfold View.elems
          rw [hword hz]
          apply List.map_congr_left
          intro q hq
          exact hel q (List.mem_range.1 hq)
      · intro x hx
        rw [hrows.2 x, hset2 x]
        · intro u hu hw
          exact hx ⟨u, hu, .inr hw⟩
        · intro k c u hc hu hin
          have huv : k < svs.length := by
            obtain ⟨hk, -⟩ := List.getElem?_eq_some_iff.1 hu
            omega
          obtain ⟨c', hc', -, -, c3⟩ := hns k _ u (List.getElem?_eq_getElem huv) hu
          rw [hc] at hc'
          cases hc'
          have h3 := Nat.mul_le_mul_right t c3
          exact hx ⟨u, List.mem_iff_getElem?.2 ⟨k, hu⟩, .inl ⟨hin.1, by omega⟩⟩

/-- What a copy of a jagged vector does. -/
theorem copyJag_acts (dbg : Bool) (m : Mem) (t : Nat) (ht : 0 < t) (src dst : JagView) (hs : JagValid m t src.views)
    (hd : JagValid m t dst.views) (hsep : ∀ x, ¬ (JagHas t src.views x ∧ JagHas t dst.views x))
    (hl : src.views.length = dst.views.length) :
    ((∃ (i : Nat) (v w : View), src.views[i]? = some v ∧ dst.views[i]? = some w ∧ w.capacity < v.len m) ∧
      (copyJag dbg t src dst).Acts m .lengthError m) ∨
    ∃ m', (copyJag dbg t src dst).Acts m (.ok ()) m' ∧
      (∀ (i : Nat) (v w : View), src.views[i]? = some v → dst.views[i]? = some w →
        v.len m ≤ w.capacity ∧ v.HoldsRow m m' t w) ∧
      ∀ x, ¬ JagHas t dst.views x → m' x = m x := by
  rcases copyViewJag_does dbg m t ht src dst hs hd hsep hl with ⟨h1, h2⟩ | ⟨b, m', h1, h2, h3⟩
  · exact .inl ⟨h1, (Does.bindErr h2 (fun _ => by simp) (fun _ => 0)).acts⟩
  · refine .inr ⟨m', h1.bindActs ?_, h2, h3⟩
    cases b
    · exact acts_retNoEvent m'
    · exact acts_retEvent m'

/-- For different numbers of rows, `copy_view_impl` throws, or does nothing if the source has none. -/
theorem copyViewJag_unequal (dbg : Bool) {m : Mem} {t : Nat} {src dst : JagView} (hs : JagValid m t src.views)
    (hl : src.views.length ≠ dst.views.length) :
    (copyViewJag dbg t src dst).Does m (if src.views = [] then .ok false else .lengthError) m := by
  by_cases h1 : src.views.length > dst.views.length
  · rw [if_neg (fun h => by rw [h] at h1; simp at h1)]
    unfold copyViewJag
    simp only
    rw [if_pos h1]
    exact does_ret _ _
  · by_cases h0 : src.views = []
    · rw [if_pos h0]
      unfold copyViewJag
      simp only
      rw [if_neg h1, if_pos (by simp [h0])]
      exact does_ret _ _
    · rw [if_neg h0]
      unfold copyViewJag
      simp only
      rw [if_neg h1, if_neg (fun h => h0 (List.length_eq_zero_iff.1 h))]
      refine (getSizes_does hs).bind fun L d => ?_
      have e : (setSizes L.length (src.views.map (·.len m)) dst.views).run
          ⟨m, L ++ [Local.uints (src.views.map (·.len m))], d⟩ =
          (.lengthError, ⟨m, L ++ [Local.uints (src.views.map (·.len m))], d⟩) := by
        unfold setSizes
        rw [if_neg (by simp [h0]), if_pos (by simpa using hl)]
        rfl
      exact ⟨d, run_scope (run_bind_err e (fun _ => by simp) (fun _ => true)) (by simp)⟩

/-! ## setup and memset -/

theorem memFill_word {m : Mem} {p n : Nat} {v : View} (h1 : p ≤ v.sizePtr) (h2 : v.sizePtr + 4 ≤ p + n) (h0 : v.sizePtr ≠ 0) :
    v.len (memFill m p 0 n) = 0 := by
  rw [View.len, if_neg h0, readLE_of_bytes (v := 0)]
  intro i hi
  unfold memFill
  rw [if_pos (by omega)]
  simp

theorem wrap_of_lt {n : Nat} (h : n < 2 ^ 64) : wrap64 n = n := Nat.mod_eq_of_lt h

theorem setupJag_acts {m : Mem} {t : Nat} {j : JagView} (hp : JagPlaced t j.views) (hn : j.views.length * viewSize < 2 ^ 64)
    (h1 : ∀ v ∈ j.views, ∀ x, v.HasWord x → ¬ (j.hostPtr ≤ x ∧ x < j.hostPtr + j.views.length * viewSize))
    (h2 : ∀ v ∈ j.views, ∀ x, v.HasWord x → ¬ (j.ptr ≤ x ∧ x < j.ptr + j.views.length * viewSize))
    (h3 : j.ptr ≠ j.hostPtr → ¬ overlap (j.views.length * viewSize) j.hostPtr j.ptr) :
    ∃ m', (setupJag j).Acts m (.ok ()) m' ∧ (∀ v ∈ j.views, v.sizePtr ≠ 0 → v.len m' = 0) ∧
      (∀ q, q < j.views.length * viewSize → m' (j.ptr + q) = m (j.hostPtr + q) ∧ m' (j.hostPtr + q) = m (j.hostPtr + q)) ∧
      ∀ x, (∀ v ∈ j.views, ¬ v.HasWord x) → ¬ (j.ptr ≤ x ∧ x < j.ptr + j.views.length * viewSize) → m' x = m x := by
  obtain ⟨vs, p, hpt⟩ := j
  simp only at hp hn h1 h2 h3 ⊢
  cases vs with
  | nil => exact ⟨m, acts_retNoEvent m, by simp, by simp, fun _ _ _ => rfl⟩
  | cons v vs =>
    -- the memory after the size words are set
    obtain ⟨m1, hm1, hm2, hm3⟩ : ∃ m1, (∀ (k : Prog Nat) r m', k.Acts m1 r m' →
        (if v.sizePtr ≠ 0 then Prog.issue (.memset (wrap64 (4 * (v :: vs).length)) v.sizePtr 0) k else k).Acts m r m') ∧
        (∀ w ∈ v :: vs, w.sizePtr ≠ 0 → w.len m1 = 0) ∧ ∀ x, (∀ w ∈ v :: vs, ¬ w.HasWord x) → m1 x = m x := by
      rcases hp.words with hz | ⟨hd, hd0, hadj⟩
      · have hv := hz v (List.mem_cons_self ..)
        refine ⟨m, fun k r m' h => by rw [if_neg (by simpa using hv)]; exact h, fun w hw h0 => absurd (hz w hw) h0, fun _ _ => rfl⟩
      · have e0 := hadj 0 v rfl
        refine ⟨memFill m v.sizePtr 0 (4 * (v :: vs).length), fun k r m' h => ?_, fun w hw h0 => ?_, fun x hx => ?_⟩
        · rw [if_pos (by omega), wrap_of_lt (by have := hp.count; omega)]
          exact acts_memset h
        · obtain ⟨i, hi⟩ := List.mem_iff_getElem?.1 hw
          have e1 := hadj i w hi
          obtain ⟨hlt, -⟩ := List.getElem?_eq_some_iff.1 hi
          exact memFill_word (by omega) (by omega) h0
        · unfold memFill
          rw [if_neg]
          rintro ⟨a, b⟩
          have hidx : (x - v.sizePtr) / 4 < (v :: vs).length := by omega
          have hv := hadj _ _ (List.getElem?_eq_getElem hidx)
          exact hx _ (List.getElem_mem hidx) ⟨by omega, by omega, by omega⟩
    have hh : ∀ q, q < (v :: vs).length * viewSize → m1 (hpt + q) = m (hpt + q) := by
      intro q hq
      exact hm3 _ fun w hw hx => h1 w hw _ hx ⟨by omega, by omega⟩
    have hunf : setupJag ⟨v :: vs, p, hpt⟩ = if v.sizePtr ≠ 0 then Prog.issue (.memset (wrap64 (4 * (v :: vs).length)) v.sizePtr 0)
        (if p = hpt then retEvent else .issue (.copy (wrap64 ((v :: vs).length * viewSize)) hpt p) retEvent)
        else (if p = hpt then retEvent else .issue (.copy (wrap64 ((v :: vs).length * viewSize)) hpt p) retEvent) := rfl
    rw [hunf]
    by_cases he : p = hpt
    · subst he
      refine ⟨m1, hm1 _ _ _ (by rw [if_pos rfl]; exact acts_retEvent _), hm2, fun q hq => ⟨hh q hq, hh q hq⟩,
        fun x hx _ => hm3 x hx⟩
    · refine ⟨memCopy m1 p hpt ((v :: vs).length * viewSize), hm1 _ _ _ ?_, ?_, ?_, ?_⟩
      · rw [if_neg he, wrap_of_lt hn]
        exact acts_copy (h3 he) (acts_retEvent _)
      · intro w hw h0
        rw [← hm2 w hw h0]
        refine len_of_word fun x hx => ?_
        unfold memCopy
        rw [if_neg (h2 w hw x hx)]
      · intro q hq
        refine ⟨?_, ?_⟩
        · unfold memCopy
          rw [if_pos ⟨by omega, by omega⟩, Nat.add_sub_cancel_left, hh q hq]
        · unfold memCopy
          rw [if_neg, hh q hq]
          intro hc
          have := h3 he
          unfold overlap at this
          omega
      · intro x hx hp
        unfold memCopy
        rw [if_neg hp]
        exact hm3 x hx

theorem chain_total {t : Nat} {p : Nat} {vs : List View} (ht : 0 < t) (hc : RowChain t p vs) (hv : ∀ v ∈ vs, v.Placed t) :
    wrap64 (wrap64 (vs.map (·.capacity)).sum * t) = (vs.map (·.capacity)).sum * t := by
  by_cases hs : (vs.map (·.capacity)).sum = 0
  · rw [hs]; simp [wrap64]
  · have h1 := chain_space hc (fun v hx => (hv v hx).space) hs
    have h2 : p ≠ 0 := by
      intro hp0
      have hpos := Nat.mul_pos (Nat.pos_of_ne_zero hs) ht
      obtain ⟨u, hu, p1, p2⟩ := chain_covers (x := p) hc (Nat.le_refl _) (by omega)
      have hcu : u.capacity ≠ 0 := fun h => by rw [h] at p2; omega
      exact (hv u hu).ptr hcu (by omega)
    have h3 : (vs.map (·.capacity)).sum ≤ (vs.map (·.capacity)).sum * t := Nat.le_mul_of_pos_right _ ht
    rw [wrap_of_lt (n := (vs.map (·.capacity)).sum) (by omega), wrap_of_lt (by omega)]

theorem memsetFirst_acts {t n : Nat} {value : UInt8} {m : Mem} : ∀ {vs : List View} {p : Nat}, RowChain t p vs →
    (∀ v ∈ vs, v.capacity ≠ 0 → v.ptr ≠ 0) →
    (memsetFirst n value vs).Acts m (.ok ()) (if (vs.map (·.capacity)).sum = 0 then m else memFill m p value n) := by
  intro vs
  induction vs with
  | nil => intro p _ _; exact acts_retNoEvent m
  | cons v vs ih =>
    intro p hc hv
    obtain ⟨hp, hc⟩ := hc
    unfold memsetFirst
    by_cases h0 : v.capacity = 0
    · rw [if_neg (by simp [h0])]
      have := ih hc fun w hw => hv w (List.mem_cons_of_mem _ hw)
      simpa [h0] using this
    · rw [if_pos ⟨h0, hv v (List.mem_cons_self ..) h0⟩, if_neg (by simp only [List.map_cons, List.sum_cons]; omega), hp]
      exact acts_memset (acts_retEvent _)

theorem memsetEach_acts {t : Nat} {value : UInt8} : ∀ {vs : List View} {m : Mem}, (∀ v ∈ vs, wrap64 (v.capacity * t) = v.capacity * t) →
    ∃ m', (memsetEach t value vs).Acts m (.ok ()) m' ∧ ∀ x, ((∃ v ∈ vs, v.HasPayload t x) → m' x = value) ∧
      ((¬ ∃ v ∈ vs, v.HasPayload t x) → m' x = m x) := by
  intro vs
  induction vs with
  | nil => intro m _; exact ⟨m, acts_retEvent m, fun x => ⟨by rintro ⟨v, hv, -⟩; simp at hv, fun _ => rfl⟩⟩
  | cons v vs ih =>
    intro m hv
    obtain ⟨m', h1, h2⟩ := ih (m := memFill m v.ptr value (v.capacity * t)) fun w hw => hv w (List.mem_cons_of_mem _ hw)
    refine ⟨m', ?_, fun x => ⟨?_, ?_⟩⟩
    · unfold memsetEach
      rw [hv v (List.mem_cons_self ..)]
      exact acts_memset h1
    · rintro ⟨w, hw, hx⟩
      by_cases hex : ∃ v ∈ vs, v.HasPayload t x
      · exact (h2 x).1 hex
      · rw [(h2 x).2 hex]
        rcases List.mem_cons.1 hw with rfl | hw
        · unfold memFill
          rw [if_pos ⟨hx.1, hx.2⟩]
        · exact absurd ⟨w, hw, hx⟩ hex
    · intro hno
      rw [(h2 x).2 (fun ⟨w, hw, hx⟩ => hno ⟨w, List.mem_cons_of_mem _ hw, hx⟩)]
      unfold memFill
      rw [if_neg]
      exact fun hx => hno ⟨v, List.mem_cons_self .., hx⟩

theorem View.Placed.wrap {t : Nat} {v : View} (h : v.Placed t) : wrap64 (v.capacity * t) = v.capacity * t := by
  by_cases h0 : v.capacity = 0
  · rw [h0]; simp [wrap64]
  · have := h.space h0
    have := h.ptr h0
    exact wrap_of_lt (by omega)

theorem memsetJag_acts {m : Mem} {t : Nat} {j : JagView} {value : UInt8} (ht : 0 < t) (hp : ∀ v ∈ j.views, v.Placed t)
    (hne : j.views ≠ []) :
    ∃ m', (memsetJag t j value).Acts m (.ok ()) m' ∧ ∀ x, ((∃ v ∈ j.views, v.HasPayload t x) → m' x = value) ∧
      ((¬ ∃ v ∈ j.views, v.HasPayload t x) → m' x = m x) := by
  unfold memsetJag
  rw [if_neg hne]
  obtain ⟨vs, p, hpt⟩ := j
  simp only at hp hne ⊢
  split
  · rename_i hc
    cases vs with
    | nil => exact absurd rfl hne
    | cons v vs =>
      have hch := chain_of_contiguous hc
      refine ⟨_, memsetFirst_acts hch fun w hw => (hp w hw).ptr, fun x => ⟨?_, ?_⟩⟩
      · rintro ⟨w, hw, hx⟩
        obtain ⟨i, hi⟩ := List.mem_iff_getElem?.1 hw
        obtain ⟨e1, e2⟩ := chain_ptr hch i w hi
        obtain ⟨x1, x2⟩ := hx
        have hcw : w.capacity ≠ 0 := fun h => by rw [h] at x2; omega
        rw [if_neg (by omega), chain_total ht hch hp]
        unfold memFill
        have := Nat.mul_le_mul_right t e2
        rw [Nat.add_mul] at this
        rw [if_pos ⟨by omega, by omega⟩]
      · intro hno
        split
        · rfl
        · rw [chain_total ht hch hp]
          unfold memFill
          rw [if_neg]
          rintro ⟨a, b⟩
          exact hno (chain_covers hch a b)
  · exact memsetEach_acts fun v hv => (hp v hv).wrap

/-! ## descriptors -/

theorem writeViews_other : ∀ {vs : List View} {m : Mem} {p x : Nat}, ¬ (p ≤ x ∧ x < p + vs.length * viewSize) →
    writeViews m p vs x = m x := by
  intro vs
  induction vs with
  | nil => intros; rfl
  | cons v vs ih =>
    intro m p x h
    unfold viewSize at h ih
    simp only [List.length_cons, Nat.succ_mul] at h
    simp only [writeViews, viewSize]
    rw [ih (by omega), writeLE_other (by omega), writeLE_other (by omega), writeLE_other (by omega)]

theorem writeViews_described : ∀ {vs : List View} {m : Mem} {p : Nat}, (∀ v ∈ vs, v.capacity < 2 ^ 32 ∧ v.sizePtr < 2 ^ 64 ∧
    (v.capacity ≠ 0 → v.ptr < 2 ^ 64)) → DescribedAt (writeViews m p vs) p vs := by
  intro vs
  induction vs with
  | nil => intro m p _ i v h; simp at h
  | cons w vs ih =>
    intro m p hv i v hi
    simp only [writeViews, viewSize]
    cases i with
    | zero =>
      simp only [List.getElem?_cons_zero, Option.some.injEq] at hi
      subst hi
      obtain ⟨b1, b2, b3⟩ := hv w (List.mem_cons_self ..)
      simp only [Nat.mul_zero, Nat.add_zero]
      have hc : ∀ a k, p ≤ a → a + k ≤ p + 24 → ∀ m, readLE (writeViews m (p + 24) vs) a k = readLE m a k :=
        fun a k h1 h2 m => readLE_congr fun x h3 h4 => writeViews_other (by unfold viewSize; omega)
      rw [hc _ _ (by omega) (by omega), hc _ _ (by omega) (by omega), hc _ _ (by omega) (by omega)]
      refine ⟨?_, ?_, fun h => ?_⟩
      · rw [readLE_writeLE_other (by omega), readLE_writeLE_other (by omega), readLE_writeLE (by omega)]
      · rw [readLE_writeLE_other (by omega), readLE_writeLE (by omega)]
      · rw [readLE_writeLE (by have := b3 h; omega)]
    | succ i =>
      have := ih (m := writeLE (writeLE (writeLE m p 4 w.capacity) (p + 8) 8 w.sizePtr) (p + 16) 8 w.ptr) (p := p + 24)
        (fun u hu => hv u (List.mem_cons_of_mem _ hu)) i v (by simpa using hi)
      rw [show p + 24 * (i + 1) = p + 24 + 24 * i by omega]
      exact this

theorem described_congr {m m' : Mem} {p p' : Nat} {vs : List View} (h : DescribedAt m p vs)
    (he : ∀ q, q < vs.length * viewSize → m' (p' + q) = m (p + q)) : DescribedAt m' p' vs := by
  intro i v hi
  obtain ⟨hlt, -⟩ := List.getElem?_eq_some_iff.1 hi
  obtain ⟨h1, h2, h3⟩ := h i v hi
  unfold viewSize at he
  refine ⟨?_, ?_, fun hc => ?_⟩
  · rw [← h1]
    refine readLE_shift fun q hq => ?_
    rw [Nat.add_assoc, Nat.add_assoc]
    exact he _ (by omega)
  · rw [← h2]
    refine readLE_shift fun q hq => ?_
    simp only [Nat.add_assoc]
    exact he _ (by omega)
  · rw [← h3 hc]
    refine readLE_shift fun q hq => ?_
    simp only [Nat.add_assoc]
    exact he _ (by omega)

theorem le_sum_of_mem {l : List Nat} {n : Nat} (h : n ∈ l) : n ≤ l.sum := by
  induction l with
  | nil => simp at h
  | cons a l ih =>
    rw [List.sum_cons]
    rcases List.mem_cons.1 h with rfl | h
    · omega
    · have := ih h; omega

/-- The inner vectors of a jagged buffer may be set up. -/
theorem InnerVectors.placed {b : Blk} {t : CType} {caps : List Nat} {r : Bool} {vs : List View}
    (h : InnerVectors b t caps r vs) (hb : caps.sum ≠ 0 → b.addr + b.size ≤ 2 ^ 64) (hc : ∀ c ∈ caps, c < 2 ^ 32)
    (hn : caps.length * 4 < 2 ^ 64) : JagPlaced t.size vs := by
  have hlen : vs.length = caps.length := by rw [← h.capacities, List.length_map]
  have hmem : ∀ v ∈ vs, v.capacity ∈ caps := fun v hv => by
    rw [← h.capacities]; exact List.mem_map.2 ⟨v, hv, rfl⟩
  have hsum : ∀ v ∈ vs, v.capacity ≤ caps.sum := fun v hv => le_sum_of_mem (hmem v hv)
  have hap : ∀ v ∈ vs, ∀ w ∈ vs, ∀ x, v.HasPayload t.size x → ¬ w.HasWord x := by
    rintro v hv w hw x ⟨p1, p2⟩ ⟨q0, q1, q2⟩
    have hc0 : v.capacity ≠ 0 := fun h => by rw [h] at p2; omega
    cases r with
    | false => exact q0 (by simpa using h.words w hw)
    | true =>
      have := h.before rfl w hw v hv hc0
      omega
  refine ⟨fun v hv => ⟨fun h0 => by
      obtain ⟨p0, p1, -⟩ := h.payload v hv h0
      simp only [View.payload, CType.region] at p1
      omega, fun h0 => ?_, hc _ (hmem v hv), fun x hx => hap v hv v hv x hx.1 hx.2⟩,
    ?_, ?_, by omega⟩
  · have h1 := (h.payload v hv h0).2.2
    have h2 := hb (by have := hsum v hv; omega)
    simp only [View.payload, CType.region] at h1
    omega
  · rw [List.pairwise_iff_getElem]
    intro i j hi hj hij x ⟨hx, hy⟩
    have hp := List.pairwise_iff_getElem.1 h.payloads i j hi hj hij
    rcases hx with hx | hx <;> rcases hy with hy | hy
    · obtain ⟨_, x2⟩ := hx
      obtain ⟨y1, _⟩ := hy
      omega
    · exact hap _ (List.getElem_mem hi) _ (List.getElem_mem hj) x hx hy
    · exact hap _ (List.getElem_mem hj) _ (List.getElem_mem hi) x hy hx
    · cases r with
      | false => exact hx.1 (by simpa using h.words _ (List.getElem_mem hi))
      | true =>
        obtain ⟨d, hd⟩ := h.adjacent rfl
        have e1 := hd i _ (List.getElem?_eq_getElem hi)
        have e2 := hd j _ (List.getElem?_eq_getElem hj)
        obtain ⟨_, _, x2⟩ := hx
        obtain ⟨_, y1, _⟩ := hy
        omega
  · cases r with
    | false => exact .inl fun v hv => by simpa using h.words v hv
    | true =>
      cases vs with
      | nil => exact .inl (by simp)
      | cons v vs =>
        obtain ⟨d, hd⟩ := h.adjacent rfl
        refine .inr ⟨d, ?_, hd⟩
        have e0 := hd 0 v rfl
        have := h.words v (List.mem_cons_self ..)
        simp only [if_true] at this
        omega

theorem elems_congr {m m' : Mem} {t : Nat} {v : View} (hv : v.len m ≤ v.capacity) (h : ∀ x, v.Has t x → m' x = m x) :
    v.elems m' t = v.elems m t := by
  unfold View.elems
  rw [len_of_word (m' := m') (m := m) fun x hx => h x (.inr hx)]
  apply List.map_congr_left
  intro i hi
  refine bytesAt_congr fun q hq => h _ (.inl ⟨by omega, ?_⟩)
  have : (i + 1) * t ≤ v.capacity * t := Nat.mul_le_mul_right t (by have := List.mem_range.1 hi; omega)
  rw [Nat.succ_mul] at this
  omega

theorem JagValid.congr {m m' : Mem} {t : Nat} {vs : List View} (h : JagValid m t vs) (he : ∀ x, JagHas t vs x → m' x = m x) :
    JagValid m' t vs := by
  refine ⟨h.toJagPlaced, fun v hv => ?_⟩
  rw [len_of_word (m' := m') (m := m) fun x hx => he x ⟨v, hv, .inr hx⟩]
  exact h.sizes v hv

end Vecmem
