import Verif.Lists.SkipListOps
import Mathlib.Data.List.Induction

/-! # A skip list refines its specification (no property content) -/

set_option linter.unusedSectionVars false
set_option linter.unusedSimpArgs false
attribute [local irreducible] Extra.upd

namespace Extra
variable {N : Type} [LinearOrder N] [OrderBot N]
attribute [local instance] numData

/-- the object `s` stands for the abstract state `st` -/
def SkInv (s : SkipList N) (st : List (N × Nat)) : Prop :=
  ∃ T, SkRep s T ∧ VOk T st ∧ TowerOk st

theorem towerVals_mem {st : List (N × Nat)} {e : N × Nat} (he : e ∈ st) : e.1 ∈ towerVals st :=
  List.mem_map_of_mem he

theorem around_out {st : List (N × Nat)} {v : N} (ht : TowerOk st) (hv : v ∉ towerVals st) :
    st = st.filter (fun e => e.1 < v) ++ st.filter (fun e => v < e.1) ∧
      Around v (st.filter (fun e => e.1 < v)) (st.filter (fun e => v < e.1)) := by
  refine ⟨?_, fun e he => by simpa using (List.mem_filter.1 he).2,
    fun e he => by simpa using (List.mem_filter.1 he).2⟩
  have hs : (towerVals st).Pairwise (· < ·) := (List.pairwise_cons.1 ht).2
  clear ht
  induction st with
  | nil => rfl
  | cons e st ih =>
    simp only [towerVals, List.map_cons, List.pairwise_cons, List.mem_cons, not_or] at hs hv
    have ih := ih hv.2 hs.2
    rcases lt_trichotomy e.1 v with h | h | h
    · simp only [List.filter_cons, decide_eq_true h, if_true, decide_eq_false (not_lt.2 h.le),
        Bool.false_eq_true, if_false, List.cons_append]
      rw [← ih]
    · exact absurd h.symm hv.1
    · have h1 : ∀ x ∈ st, v < x.1 := fun x hx => h.trans (hs.1 x.1 (towerVals_mem hx))
      have h2 : st.filter (fun e => e.1 < v) = [] :=
        List.filter_eq_nil_iff.2 (fun a ha => by simpa using (h1 a ha).le)
      rw [h2] at ih
      simp only [List.filter_cons, decide_eq_true h, if_true, decide_eq_false (not_lt.2 h.le),
        Bool.false_eq_true, if_false, h2, List.nil_append]
      rw [List.nil_append] at ih
      rw [← ih]

theorem around_in {st : List (N × Nat)} {v : N} (ht : TowerOk st) (hv : v ∈ towerVals st) :
    ∃ A k B, st = A ++ (v, k) :: B ∧ Around v A B ∧ towerRemove v st = A ++ B := by
  obtain ⟨⟨x, k⟩, he, rfl⟩ := List.mem_map.1 hv
  obtain ⟨A, B, rfl⟩ := List.append_of_mem he
  have hs : (towerVals (A ++ (x, k) :: B)).Pairwise (· < ·) := (List.pairwise_cons.1 ht).2
  simp only [towerVals, List.map_append, List.map_cons] at hs
  obtain ⟨_, s2, s3⟩ := List.pairwise_append.1 hs
  have ar : Around x A B := ⟨fun e he => s3 _ (List.mem_map_of_mem he) _ (by simp),
    fun e he => (List.pairwise_cons.1 s2).1 _ (List.mem_map_of_mem he)⟩
  refine ⟨A, k, B, rfl, ar, ?_⟩
  simp only [towerRemove, List.filter_append, List.filter_cons, ne_eq, not_true, decide_false,
    Bool.false_eq_true, if_false]
  rw [List.filter_eq_self.2 (fun a ha => by simpa using (ar.lo a ha).ne),
    List.filter_eq_self.2 (fun a ha => by simpa using (ar.hi a ha).ne')]

theorem TowerOk.mid {A B : List (N × Nat)} {v : N} (ht : TowerOk (A ++ B)) (hv : v ≠ ⊥)
    (ar : Around v A B) (k : Nat) : TowerOk (A ++ (v, k) :: B) := by
  simp only [TowerOk, towerVals, List.map_append, List.map_cons] at ht ⊢
  rw [← List.cons_append] at ht ⊢
  obtain ⟨s1, s2, s3⟩ := List.pairwise_append.1 ht
  have hB : ∀ z ∈ B.map (·.1), v < z := by
    intro z hz
    obtain ⟨e, he, rfl⟩ := List.mem_map.1 hz
    exact ar.hi e he
  refine List.pairwise_append.2 ⟨s1, List.pairwise_cons.2 ⟨hB, s2⟩, ?_⟩
  intro a ha b hb
  rcases List.mem_cons.1 hb with rfl | hb
  · rcases List.mem_cons.1 ha with rfl | ha
    · exact bot_lt_iff_ne_bot.2 hv
    · obtain ⟨e, he, rfl⟩ := List.mem_map.1 ha
      exact ar.lo e he
  · exact s3 a ha b hb

theorem TowerOk.sub {st st' : List (N × Nat)} (ht : TowerOk st) (h : st'.Sublist st) :
    TowerOk st' :=
  List.Pairwise.sublist ((h.map _).cons_cons _) ht

variable {s : SkipList N} {st : List (N × Nat)}

theorem SkInv.base (I : SkInv s st) : ∃ t, s.levels[0]? = some t.l ∧ LvlOk s.heap t ∧
    t.xs = towerVals st := by
  obtain ⟨T, r, o, ok⟩ := I
  obtain ⟨t, ht⟩ := o.some (i := 0) (Or.inl rfl)
  exact ⟨t, by rw [r.levels, List.getElem?_map, ht]; rfl, r.geo.lvl 0 t ht,
    by rw [o.get ht, towerLevel_zero]⟩

theorem SkInv.search (I : SkInv s st) {v : N} (hv : v ≠ ⊥) :
    ∃ T m p f last, SkRep s T ∧ VOk T st ∧ TowerOk st ∧ T.length = m + 1 ∧
      skipSearch v s = (.ok (p, f, last), s) ∧ SRes T m v p f last ∧
      ((s.heap.node f).data = some v ↔ v ∈ towerVals st) := by
  obtain ⟨T, r, o, ok⟩ := I
  have hm : T.length = (towerHeight st - 1) + 1 := by
    rw [o.length]; simp only [towerHeight]; omega
  obtain ⟨p, f, last, e, sr⟩ := skipSearch_run r hm hv
  refine ⟨T, _, p, f, last, r, o, ok, hm, e, sr, ?_⟩
  rcases sr with ⟨i, t, hi, ht, hh, _⟩ | ⟨_, ⟨t, ht, hm⟩, _⟩
  · have hmem := hh.mem hv
    rw [o.get ht] at hmem
    have := (towerLevel_sub (st := st) (Nat.zero_le i)).subset hmem
    rw [towerLevel_zero] at this
    simp [hh.data (r.geo.lvl i t ht), this]
  · obtain ⟨y, ey, hy⟩ := hm.data (r.geo.lvl 0 t ht)
    have hn := hm.not_mem
    rw [o.get ht, towerLevel_zero] at hn
    simp [ey, hy.ne, hn]

theorem insert_step (I : SkInv s st) {v : N} (hv : v ≠ ⊥) (heads : Nat) :
    ∃ s', skInsert (.num v) heads s = (.ok (), s') ∧
      SkInv s' (if v ∈ towerVals st then st else towerInsert v heads st) := by
  obtain ⟨T, m, p, f, last, r, o, ok, hm, e, sr, hd⟩ := I.search hv
  by_cases hin : v ∈ towerVals st
  · refine ⟨s, ?_, by rw [if_pos hin]; exact ⟨T, r, o, ok⟩⟩
    unfold skInsert
    refine (sbind_ok (srun_lift_ok v s)).trans ?_
    refine (sbind_ok e).trans ?_
    refine (sbind_ok (srun_onHeap (run_getData _ _))).trans ?_
    rw [if_pos (hd.2 hin)]
    rfl
  · rw [if_neg hin]
    rcases sr with ⟨i, t, hi, ht, hh, _⟩ | ⟨hlast, ⟨t, ht, hmiss⟩, hall⟩
    · exact absurd (hd.1 (hh.data (r.geo.lvl i t ht))) hin
    obtain ⟨est, ar⟩ := around_out ok hin
    obtain ⟨h1, h2, ns', ys, zs, e1, e2, ex, p1, p2, o2, fr, ens, same, x1, x2, m1, m2⟩ :=
      insertLevel_run r.geo ht hmiss
    have hx := o.get ht
    simp only [towerInsert]
    have ok' := ok
    rw [est, ex] at hx
    rw [est] at o ok'
    generalize st.filter (fun e => e.1 < v) = A at *
    generalize st.filter (fun e => v < e.1) = B at *
    rw [towerLevel_append] at hx
    obtain ⟨hA, hB⟩ := split_unique hx p1 p2 (ar.level_lo _) (ar.level_hi _)
    have hlev : s.levels[0]? = some t.l := by rw [r.levels, List.getElem?_map, ht]; rfl
    have hT := get_lt ht
    have r1 : SkRep { s with heap := h2 } (T.set 0 ⟨t.l, ns', ys ++ v :: zs⟩) := by
      refine ⟨?_, ?_, ?_⟩
      · refine Geo.insert (n := s.heap.nNodes) (dn := none) (v := v) r.geo ht o2 fr rfl ens
          (Nat.le_refl _) same x1 x2 (fun _ => rfl) (fun j b hj => by omega)
      · show s.levels = _
        rw [set_map_l ht (t' := ⟨t.l, ns', ys ++ v :: zs⟩) rfl]; exact r.levels
      · show s.numLevels = _
        rw [List.length_set]; exact r.num
    obtain ⟨s3, T3, e3, r3, o3⟩ := promoteLoop_run ar hv last heads 0 _ _
      ⟨t.l, ns', ys ++ v :: zs⟩ s.heap.nNodes r1 (o.base (v := v) (by rw [hA, hB])) (by
        rw [List.getElem?_set, if_pos rfl, if_pos hT]) ((ens _).2 (Or.inl rfl)) x2 (by
        intro i u _ hu
        rw [List.getElem?_set, if_neg (by omega)] at hu
        exact hall i u hu)
    rw [Nat.zero_add] at o3
    refine ⟨s3, ?_, T3, r3, o3, ok'.mid hv ar heads⟩
    unfold skInsert
    refine (sbind_ok (srun_lift_ok v s)).trans ?_
    refine (sbind_ok e).trans ?_
    refine (sbind_ok (srun_onHeap (run_getData _ _))).trans ?_
    rw [if_neg (fun hh => hin (hd.1 hh))]
    refine (sbind_ok (srun_onHeap e1)).trans ?_
    refine (sbind_ok (srun_levelAt (s := { s with heap := h1 }) hlev)).trans ?_
    refine (sbind_ok (srun_onHeap e2)).trans ?_
    exact e3

theorem remove_step (I : SkInv s st) {v : N} (hv : v ≠ ⊥) :
    ∃ s', skRemoveNum v s = (.ok (), s') ∧ SkInv s' (towerRemove v st) := by
  obtain ⟨T, m, p, f, last, r, o, ok, hm, e, sr, hd⟩ := I.search hv
  by_cases hin : v ∈ towerVals st
  · obtain ⟨A, k, B, est, ar, erem⟩ := around_in ok hin
    rcases sr with ⟨i, t, hi, ht, hh, hlast, habove⟩ | ⟨hlast, ⟨t, ht, hmiss⟩, hall⟩
    · have hik : i = k := by
        have h1 : i ≤ k := by
          have hmem := hh.mem hv
          rw [o.get ht, est, towerLevel_append, towerLevel_cons] at hmem
          by_contra hc
          rw [if_neg (by omega)] at hmem
          exact ar.not_mem i hmem
        have h2 : ¬ i < k := by
          intro hlt
          have hv' : v ∈ towerLevel st k := by
            rw [est, towerLevel_append, towerLevel_cons, if_pos (Nat.le_refl k)]; simp
          obtain ⟨u, hu⟩ := o.some (i := k) (Or.inr (List.ne_nil_of_mem hv'))
          have := habove k u hlt hu
          rw [o.get hu] at this
          exact this hv'
        omega
      subst hik
      rw [est] at o
      obtain ⟨s2, T2, e2, r2, o2⟩ := skRemoveLoop_run ar hv i s T t p f r o ht hh
      refine ⟨s2, ?_, T2, r2, by rw [erem]; exact o2, ?_⟩
      · unfold skRemoveNum
        refine (sbind_ok e).trans ?_
        refine (sbind_ok (srun_onHeap (run_getData _ _))).trans ?_
        rw [if_pos (hd.2 hin)]
        refine (sbind_ok (srun_getNum _)).trans ?_
        have : s.numLevels - last.length = i + 1 := by rw [r.num, hm, hlast]; omega
        rw [this]
        exact e2
      · rw [erem]
        rw [est] at ok
        exact ok.sub (List.Sublist.append (List.Sublist.refl _) (List.sublist_cons_self _ _))
    · exfalso
      have hn := hmiss.not_mem
      rw [o.get ht, towerLevel_zero] at hn
      exact hn hin
  · have erem : towerRemove v st = st := by
      refine List.filter_eq_self.2 (fun a ha => ?_)
      have : a.1 ≠ v := fun h => hin (h ▸ towerVals_mem ha)
      simpa using this
    refine ⟨s, ?_, by rw [erem]; exact ⟨T, r, o, ok⟩⟩
    unfold skRemoveNum
    refine (sbind_ok e).trans ?_
    refine (sbind_ok (srun_onHeap (run_getData _ _))).trans ?_
    rw [if_neg (fun hh => hin (hd.1 hh))]
    rfl

theorem contains_step (I : SkInv s st) {v : N} (hv : v ≠ ⊥) :
    skContains (.num v) s = (.ok (decide (v ∈ towerVals st)), s) := by
  obtain ⟨T, m, p, f, last, r, o, ok, hm, e, sr, hd⟩ := I.search hv
  unfold skContains
  refine (sbind_ok e).trans ?_
  refine (sbind_ok (srun_onHeap (run_getData _ _))).trans ?_
  simp only [hd]
  rfl

theorem len_step (I : SkInv s st) : skLen s = (.ok st.length, s) := by
  obtain ⟨t, hl, o, ex⟩ := I.base
  unfold skLen
  refine (sbind_ok (srun_levelAt hl)).trans ?_
  refine (sbind_ok (srun_onHeap (llLen_spec o.1))).trans ?_
  simp [ex, towerVals]

theorem index_step (I : SkInv s st) (idx : Idx) :
    skIndex idx s = (skPos st.length idx, s) := by
  cases idx with
  | slice a b c => rfl
  | other => rfl
  | int i =>
    simp only [skIndex, skPos]
    by_cases h : i ≤ -1
    · rw [if_pos h, if_neg (by omega)]; rfl
    · rw [if_neg h]
      refine (sbind_ok (len_step I)).trans ?_
      by_cases h2 : (st.length : Int) ≤ i
      · rw [if_pos (Or.inr h2), if_neg (by omega)]; rfl
      · rw [if_neg (by omega), if_pos (by omega)]; rfl

theorem skPos_lt {n i : Nat} {idx : Idx} (h : skPos n idx = .ok i) : i < n := by
  cases idx with
  | slice a b c => simp [skPos] at h
  | other => simp [skPos] at h
  | int j =>
    simp only [skPos] at h
    split at h
    · cases h; omega
    · cases h

theorem eraseIdx_towerRemove (ok : TowerOk st) {i : Nat} (hi : i < st.length) :
    towerRemove (st[i]).1 st = st.eraseIdx i := by
  have hs : (towerVals st).Pairwise (· < ·) := (List.pairwise_cons.1 ok).2
  have e : st = st.take i ++ st[i] :: st.drop (i + 1) := by
    rw [List.getElem_cons_drop, List.take_append_drop]
  rw [List.eraseIdx_eq_take_drop_succ]
  generalize st[i] = x at *
  generalize st.take i = A at *
  generalize st.drop (i + 1) = B at *
  subst e
  simp only [towerVals, List.map_append, List.map_cons] at hs
  obtain ⟨_, s2, s3⟩ := List.pairwise_append.1 hs
  simp only [towerRemove, List.filter_append, List.filter_cons, ne_eq, not_true, decide_false,
    Bool.false_eq_true, if_false]
  rw [List.filter_eq_self.2 (fun a ha => by
      simpa using (s3 _ (List.mem_map_of_mem ha) _ (by simp)).ne),
    List.filter_eq_self.2 (fun a ha => by
      simpa using ((List.pairwise_cons.1 s2).1 _ (List.mem_map_of_mem ha)).ne')]

theorem get_step (I : SkInv s st) (idx : Idx) {i : Nat} (hp : skPos st.length idx = .ok i) :
    skGet idx s = (.ok (towerVals st)[i]?, s) := by
  obtain ⟨t, hl, o, ex⟩ := I.base
  have hi := skPos_lt hp
  have hi' : i < (towerVals st).length := by simpa [towerVals] using hi
  unfold skGet
  refine (sbind_ok (a := i) (s' := s) (by rw [index_step I, hp])).trans ?_
  refine (sbind_ok (srun_levelAt hl)).trans ?_
  refine (srun_onHeap (getItem_ok o.1 (j := i + 1) (by rw [ex]; simpa using hi') ?_)).trans ?_
  · left; omega
  · simp only [List.getElem_cons_succ, ex]
    rw [List.getElem?_eq_getElem hi']

theorem del_step (I : SkInv s st) (idx : Idx) {i : Nat} (hp : skPos st.length idx = .ok i) :
    ∃ s', skDel idx s = (.ok (), s') ∧ SkInv s' (st.eraseIdx i) := by
  obtain ⟨t, hl, o, ex⟩ := I.base
  have hi := skPos_lt hp
  have ok : TowerOk st := I.choose_spec.2.2
  have hi' : i < (towerVals st).length := by simpa [towerVals] using hi
  obtain ⟨p, a, e1, d1⟩ := getNode_data o.1 (i := i + 1) (by rw [ex]; simpa using hi')
  have d2 : (s.heap.node a).data = some st[i].1 := by
    rw [d1]; simp [ex, towerVals]
  have hv : st[i].1 ≠ ⊥ :=
    ((List.pairwise_cons.1 ok).1 _ (towerVals_mem (List.getElem_mem hi))).ne'
  obtain ⟨s', e2, I'⟩ := remove_step I hv
  rw [eraseIdx_towerRemove ok hi] at I'
  refine ⟨s', ?_, I'⟩
  unfold skDel
  refine (sbind_ok (a := i) (s' := s) (by rw [index_step I, hp])).trans ?_
  refine (sbind_ok (srun_levelAt hl)).trans ?_
  refine (sbind_ok (srun_onHeap e1)).trans ?_
  refine (sbind_ok (srun_onHeap (run_getData _ _))).trans ?_
  simp only [d2]
  exact e2

theorem specSlice_tail (x : N) (xs : List N) :
    specSliceImpl (x :: xs) (some 1) none none = .ok xs := by
  have h1 : specSlicePos (xs.length + 1) (some 1) none 1 = (List.range xs.length).map (· + 1) := by
    simp only [specSlicePos, specBound, Int.one_pos, if_true]
    rw [List.range_succ_eq_map, List.filter_cons]
    simp only [Int.emod_one, Nat.cast_add, Nat.cast_one]
    rw [if_neg (by simp)]
    refine List.filter_eq_self.2 ?_
    intro a ha
    obtain ⟨b, hb, rfl⟩ := List.mem_map.1 ha
    have := List.mem_range.1 hb
    simp; omega
  simp only [specSliceImpl, Option.getD_none, Int.one_pos, if_true, specSlice, List.length_cons, h1]
  rw [if_neg (by omega)]
  congr 1
  rw [List.filterMap_map]
  have : ((fun y => (x :: xs)[y]?) ∘ fun y => y + 1) = fun y => xs[y]? := by
    funext y; simp
  rw [this]
  clear this h1
  induction xs using List.reverseRecOn with
  | nil => rfl
  | append_singleton ys y ih =>
    rw [List.length_append, List.length_singleton, List.range_succ, List.filterMap_append]
    have : (List.range ys.length).filterMap (fun k => (ys ++ [y])[k]?) =
        (List.range ys.length).filterMap (fun k => ys[k]?) := by
      refine List.filterMap_congr ?_
      intro k hk
      rw [List.getElem?_append_left (List.mem_range.1 hk)]
    rw [this, ih]
    simp

theorem toList_step (I : SkInv s st) :
    ∃ s', skToList s = (.ok ((towerVals st).map some), s') ∧ SkInv s' st := by
  obtain ⟨t, hl, o, ex⟩ := I.base
  obtain ⟨T, r, ov, ok⟩ := I
  have hg := getSlice_call (k := .ll) (by simp) o.1 (some 1) none none
  rw [specSlice_tail, ex] at hg
  obtain ⟨h', l', ns', e, bt⟩ := hg
  refine ⟨{ s with heap := h' }, ?_, T, ⟨r.geo.frame bt.frame (fun _ _ _ _ _ e => e)
    (fun _ _ _ e => e), r.levels, r.num⟩, ov, ok⟩
  unfold skToList
  refine (sbind_ok (srun_levelAt hl)).trans ?_
  refine (sbind_ok (srun_onHeap e)).trans ?_
  exact srun_onHeap (toList_spec bt.rep)

theorem clear_step (s : SkipList N) : ∃ s', skClear s = (.ok (), s') ∧ SkInv s' [] := by
  obtain ⟨h', e, o, fr, x1, x2, x3, _, _⟩ := newLevel_run s.heap
  refine ⟨⟨h', [s.heap.nLists], 1⟩, ?_, [⟨s.heap.nLists, [s.heap.nNodes], []⟩],
    ⟨⟨?_, ?_, ?_, ?_⟩, rfl, rfl⟩, ?_, by simp [TowerOk, towerVals]⟩
  · unfold skClear
    refine (sbind_ok (srun_onHeap e)).trans ?_
    rfl
  · intro i t ht
    cases i with
    | zero => cases ht; exact o
    | succ i => simp at ht
  · intro i b u _ hu
    simp at hu
  · intro b hb a ha
    cases hb
    rw [List.mem_singleton.1 ha]; exact x1
  · intro i j t u hij ht hu
    cases i with
    | zero => cases j with
      | zero => exact absurd rfl hij
      | succ j => simp at hu
    | succ i => simp at ht
  · intro i
    cases i with
    | zero => rfl
    | succ i => simp [towerHeight]

theorem new_inv : SkInv (SkipList.new : SkipList N) [] := by
  obtain ⟨s', e, I⟩ := clear_step (⟨emptySHeap, [], 0⟩ : SkipList N)
  rw [SkipList.new, e]
  exact I

/-- a call does what it should -/
theorem skExec_step (I : SkInv s st) {op : SkOp N} (hop : op.number ≠ some ⊥) :
    ∃ s', skExec op s = ((skSpec op st).1, s') ∧ SkInv s' (skSpec op st).2 := by
  cases op with
  | insert x heads =>
    cases x with
    | num v =>
      obtain ⟨s', e, I'⟩ := insert_step I (v := v) (fun h => hop (by rw [h]; rfl)) heads
      exact ⟨s', (sbind_ok e).trans rfl, I'⟩
    | none => exact ⟨s, rfl, I⟩
    | other => exact ⟨s, rfl, I⟩
  | remove x =>
    cases x with
    | num v =>
      obtain ⟨s', e, I'⟩ := remove_step I (v := v) (fun h => hop (by rw [h]; rfl))
      exact ⟨s', (sbind_ok (m := skRemove (.num v)) e).trans rfl, I'⟩
    | none => exact ⟨s, rfl, I⟩
    | other => exact ⟨s, rfl, I⟩
  | del idx =>
    simp only [skSpec]
    cases hp : skPos st.length idx with
    | ok i =>
      obtain ⟨s', e, I'⟩ := del_step I idx hp
      exact ⟨s', (sbind_ok e).trans rfl, I'⟩
    | error er =>
      refine ⟨s, ?_, I⟩
      have : skDel idx s = (.error er, s) := by
        unfold skDel
        rw [srun_bind, index_step I, hp]
      simp only [skExec]
      rw [srun_bind, this]
  | contains x =>
    cases x with
    | num v =>
      have e := contains_step I (v := v) (fun h => hop (by rw [h]; rfl))
      exact ⟨s, (sbind_ok e).trans rfl, I⟩
    | none => exact ⟨s, rfl, I⟩
    | other => exact ⟨s, rfl, I⟩
  | get idx =>
    simp only [skSpec]
    cases hp : skPos st.length idx with
    | ok i =>
      have e := get_step I idx hp
      exact ⟨s, (sbind_ok e).trans rfl, I⟩
    | error er =>
      refine ⟨s, ?_, I⟩
      have : skGet idx s = (.error er, s) := by
        unfold skGet
        rw [srun_bind, index_step I, hp]
      simp only [skExec]
      rw [srun_bind, this]
  | len => exact ⟨s, (sbind_ok (len_step I)).trans rfl, I⟩
  | isEmpty =>
    refine ⟨s, (sbind_ok (len_step I)).trans ?_, I⟩
    have : (st.length = 0) = (st = []) := by simp
    simp only [this]
    rfl
  | height =>
    refine ⟨s, (sbind_ok (srun_getNum s)).trans ?_, I⟩
    obtain ⟨T, r, o, ok⟩ := I
    rw [r.num, o.length]
    rfl
  | toList =>
    obtain ⟨s', e, I'⟩ := toList_step I
    exact ⟨s', (sbind_ok e).trans rfl, I'⟩
  | clear =>
    obtain ⟨s', e, I'⟩ := clear_step s
    exact ⟨s', (sbind_ok e).trans rfl, I'⟩

theorem skExecs_spec : ∀ (ops : List (SkOp N)) {s : SkipList N} {st : List (N × Nat)}, SkInv s st →
    (∀ op ∈ ops, op.number ≠ some ⊥) →
    (skExecs ops s).1 = (skSpecs ops st).1 ∧ SkInv (skExecs ops s).2 (skSpecs ops st).2
  | [], _, _, I, _ => ⟨rfl, I⟩
  | op :: ops, s, st, I, hop => by
    obtain ⟨s', e, I'⟩ := skExec_step I (hop op List.mem_cons_self)
    obtain ⟨e2, I2⟩ := skExecs_spec ops I' (fun o ho => hop o (List.mem_cons_of_mem _ ho))
    simp only [skExecs, skSpecs, e]
    exact ⟨by rw [e2], I2⟩

end Extra
