import Verif.Lists.SkipListRun

/-! # The calls on a skip list meet their specification (no property content) -/

set_option linter.unusedSectionVars false
set_option linter.unusedSimpArgs false
attribute [local irreducible] Extra.upd

namespace Extra
variable {N : Type} [LinearOrder N] [OrderBot N]
attribute [local instance] numData

theorem walkTo_run {h : SHeap N} {v : N} : ∀ (cs : List Addr) (a f : Addr) (bs : List Addr)
    (fuel : Nat), Lnk h (a :: (cs ++ f :: bs)) none → (∀ c ∈ cs, (h.node c).data ≠ some v) →
    (h.node f).data = some v → cs.length < fuel →
    walkTo (some v) fuel (some a) h = (.ok (a :: cs).getLast?, h)
  | _, _, _, _, 0, _, _, _, hf => by omega
  | [], a, f, bs, fuel + 1, hl, hc, hd, hf => by
    have hn := hl.1
    simp only [List.nil_append, List.head?_cons, Option.some_or] at hn
    simp [walkTo, run_bind, hn, hd]
  | c :: cs, a, f, bs, fuel + 1, hl, hc, hd, hf => by
    have hn := hl.1
    simp only [List.cons_append, List.head?_cons, Option.some_or] at hn
    have hc' := hc c List.mem_cons_self
    have ih := walkTo_run cs c f bs fuel hl.2 (fun x hx => hc x (List.mem_cons_of_mem _ hx)) hd
      (by simpa using hf)
    simp [walkTo, run_bind, hn, hc', ih, List.getLast?_cons_cons]

theorem LvlOk.split {h : SHeap N} {t : Lvl N} (o : LvlOk h t) {f : Addr} {v : N} (hf : f ∈ t.ns)
    (hd : (h.node f).data = some v) :
    ∃ as bs ys zs, t.ns = as ++ f :: bs ∧ ⊥ :: t.xs = ys ++ v :: zs ∧ as.length = ys.length ∧
      as.map (fun a => (h.node a).data) = ys.map some ∧
      bs.map (fun a => (h.node a).data) = zs.map some ∧ (∀ y ∈ ys, y < v) ∧ (∀ z ∈ zs, v < z) := by
  obtain ⟨as, bs, ens⟩ := List.append_of_mem hf
  have hdata := o.1.data
  have hl := o.1.length_eq
  have hlt : as.length < (⊥ :: t.xs).length := by rw [← hl, ens]; simp
  obtain ⟨ys, x, zs, e, el⟩ : ∃ ys x zs, ⊥ :: t.xs = ys ++ x :: zs ∧ as.length = ys.length := by
    refine ⟨(⊥ :: t.xs).take as.length, (⊥ :: t.xs)[as.length], (⊥ :: t.xs).drop (as.length + 1),
      ?_, by rw [List.length_take]; omega⟩
    rw [List.getElem_cons_drop, List.take_append_drop]
  rw [e, ens] at hdata
  obtain ⟨d1, d2, d3⟩ := data_remove el hdata
  rw [hd] at d2
  cases d2
  have hs := o.2
  rw [e] at hs
  obtain ⟨_, s2, s3⟩ := List.pairwise_append.1 hs
  exact ⟨as, bs, ys, zs, ens, e, el, d1, d3, fun y hy => s3 y hy _ (by simp),
    (List.pairwise_cons.1 s2).1⟩

theorem split_unique' {v : N} {ys zs ys' zs' : List N} (e : ys ++ v :: zs = ys' ++ v :: zs')
    (h1 : ∀ y ∈ ys, y < v) (h2 : ∀ z ∈ zs, v < z) (h1' : ∀ y ∈ ys', y < v)
    (h2' : ∀ z ∈ zs', v < z) : ys = ys' ∧ zs = zs' := by
  have f1 : ∀ l : List N, (∀ y ∈ l, y < v) → l.filter (fun x => decide (x < v)) = l :=
    fun l hl => List.filter_eq_self.2 (fun a ha => by simpa using hl a ha)
  have f2 : ∀ l : List N, (∀ y ∈ l, v < y) → l.filter (fun x => decide (x < v)) = [] :=
    fun l hl => List.filter_eq_nil_iff.2 (fun a ha => by simpa using (hl a ha).le)
  have := congrArg (List.filter (fun x => decide (x < v))) e
  rw [List.filter_append, List.filter_append, f1 _ h1, f1 _ h1', List.filter_cons,
    List.filter_cons, f2 _ h2, f2 _ h2'] at this
  simp only [lt_irrefl, decide_false, Bool.false_eq_true, if_false, List.append_nil] at this
  subst this
  exact ⟨rfl, (List.cons.inj (List.append_cancel_left e)).2⟩

theorem nextPrev_run {h : SHeap N} {t : Lvl N} (o : LvlOk h t) {p pd f : Addr} {v y : N}
    (hf : f ∈ t.ns) (hd : (h.node f).data = some v) (hp : (h.node p).ext = some pd)
    (hpd : pd ∈ t.ns) (hy : (h.node pd).data = some y) (hyv : y < v) :
    ∃ q, nextPrev (some p) (some f) h = (.ok q, h) ∧ Hit t v q f := by
  obtain ⟨as, bs, ys, zs, ens, e, el, d1, d3, p1, p2⟩ := o.split hf hd
  have hmem : pd ∈ as := by
    rw [ens] at hpd
    rcases List.mem_append.1 hpd with h1 | h1
    · exact h1
    · exfalso
      rcases List.mem_cons.1 h1 with rfl | h1
      · rw [hd] at hy; cases hy; exact lt_irrefl _ hyv
      · obtain ⟨z, hz, ez⟩ := map_some_mem d3 h1
        rw [hy] at ez; cases ez
        exact absurd (p2 _ hz) (not_lt.2 hyv.le)
  obtain ⟨a1, cs, rfl⟩ := List.append_of_mem hmem
  have hl := o.1.links
  rw [ens, List.append_assoc, Lnk_append] at hl
  have hw := walkTo_run (h := h) (v := v) cs pd f bs (h.nNodes + 1) hl.2 (by
    intro c hc
    obtain ⟨x, hx, ex⟩ := map_some_mem d1 (a := c) (by simp [hc])
    rw [ex]
    intro e2
    cases e2
    exact lt_irrefl _ (p1 _ hx)) hd (by
    have := o.1.length_le
    rw [← o.1.length_eq, ens] at this
    simp at this; omega)
  refine ⟨_, ?_, _, bs, ys, zs, ens, e, el, rfl⟩
  have : (a1 ++ pd :: cs).getLast? = (pd :: cs).getLast? := by
    rw [List.getLast?_append]; simp [List.getLast?_cons]
  rw [this]
  unfold nextPrev
  refine (run_bind_ok (run_getDown p h)).trans ?_
  refine (run_bind_ok (run_getData f h)).trans ?_
  rw [hp, hd]
  exact hw

/-- `_remove_node` on the level where `v` was found -/
theorem removeLevel_run {h : SHeap N} {T : List (Lvl N)} {k : Nat} {t : Lvl N} {v : N}
    {A B : List (N × Nat)} {prev : Option Addr} {f : Addr} (g : Geo h T)
    (ar : Around v A B) (hv : v ≠ ⊥) (o : VOk T (A ++ (v, k) :: B)) (ht : T[k]? = some t)
    (hh : Hit t v prev f) :
    ∃ h' p y t', prev = some p ∧ p ∈ t.ns ∧ (h.node p).data = some y ∧ y < v ∧ f ∈ t.ns ∧
      (h.node f).data = some v ∧
      removeNode .ll t.l prev f h = (.ok (), h') ∧ t'.l = t.l ∧
      t'.xs = towerLevel A k ++ towerLevel B k ∧ Geo h' (T.set k t') ∧ LvlOk h' t' ∧
      Frame h h' (fun a => a ∈ t.ns) (· = t.l) ∧ (∀ a, (h'.node a).ext = (h.node a).ext) := by
  have ok := g.lvl k t ht
  have hdf := hh.data ok
  obtain ⟨as, bs, ys, zs, ens, e, el, ep⟩ := hh
  have hs := ok.2
  rw [e] at hs
  obtain ⟨s1, s2, s3⟩ := List.pairwise_append.1 hs
  have s4 := List.pairwise_cons.1 s2
  have p1 : ∀ y ∈ ys, y < v := fun y hy => s3 y hy _ (by simp)
  cases ys with
  | nil =>
    simp only [List.nil_append, List.cons.injEq] at e
    exact absurd e.1.symm hv
  | cons y0 ys =>
    simp only [List.cons_append, List.cons.injEq] at e
    obtain ⟨rfl, e⟩ := e
    have hx := o.get ht
    rw [towerLevel_append, towerLevel_cons, if_pos (Nat.le_refl k), e] at hx
    obtain ⟨hA, hB⟩ := split_unique' hx (fun y hy => p1 y (by simp [hy])) s4.1 (ar.level_lo k)
      (ar.level_hi k)
    rcases List.eq_nil_or_concat as with rfl | ⟨as', p, rfl⟩
    · simp at el
    rw [List.concat_eq_append] at ens el ep
    have r := ok.1
    rw [e, ens, ← List.cons_append] at r
    obtain ⟨d1, d2, d3⟩ := data_remove el r.data
    obtain ⟨y, hy, ey⟩ := map_some_mem d1 (a := p) (by simp)
    obtain ⟨h', er, r', f', n1, n2, ex⟩ := removeNodeLL_spec (by simp) r el
    have hleft : leftNodes .ll (as' ++ [p]) f bs = (as' ++ [p]) ++ bs := by
      cases as' <;> rfl
    rw [hleft] at r'
    have okt : LvlOk h' ⟨t.l, (as' ++ [p]) ++ bs, ys ++ zs⟩ := by
      refine ⟨r', ?_⟩
      have := List.pairwise_append.2 ⟨s1, s4.2, fun a ha b hb => s3 a ha b (by simp [hb])⟩
      exact this
    have hsd : ∀ a ∈ (as' ++ [p]) ++ bs, (h'.node a).data = (h.node a).data := by
      have q1 := r'.data
      have q2 : ((as' ++ [p]) ++ bs).map (fun a => (h.node a).data) = (⊥ :: ys ++ zs).map some := by
        rw [List.map_append (l₁ := as' ++ [p]), d1, d3, ← List.map_append]
      intro a ha
      exact List.map_inj_left.1 (q1.trans q2.symm) a ha
    rw [ep] at *
    refine ⟨h', p, y, ⟨t.l, (as' ++ [p]) ++ bs, ys ++ zs⟩, by simp, by rw [ens]; simp, ey, p1 y hy,
      by rw [ens]; simp, hdf, er, rfl, by rw [hA, hB], ?_, okt, ?_, ex⟩
    · refine Geo.remove (n := f) (v := v) g ht okt ?_ rfl ?_ ?_ hsd ex hdf ?_
      · rw [ens]; exact f'
      · intro a ha
        rw [ens] at ha
        simp only [List.mem_append, List.mem_cons, List.mem_singleton, List.not_mem_nil,
          or_false] at ha ⊢
        tauto
      · intro a ha
        rw [ens]
        simp only [List.mem_append, List.mem_cons, List.mem_singleton, List.not_mem_nil,
          or_false] at ha ⊢
        tauto
      · intro u hu
        have hux := o.get hu
        rw [towerLevel_append, towerLevel_cons, if_neg (by omega)] at hux
        rw [hux]
        intro hm
        rcases List.mem_cons.1 hm with h1 | h1
        · exact hv h1
        · exact ar.not_mem _ h1
    · rw [ens]; exact f'

/-- the loop of `remove` -/
theorem skRemoveLoop_run {A B : List (N × Nat)} {v : N} (ar : Around v A B) (hv : v ≠ ⊥) :
    ∀ (k : Nat) (s : SkipList N) (T : List (Lvl N)) (t : Lvl N) (prev : Option Addr) (f : Addr),
    SkRep s T → VOk T (A ++ (v, k) :: B) → T[k]? = some t → Hit t v prev f →
    ∃ s' T', skRemoveLoop (k + 1) prev (some f) s = (.ok (), s') ∧ SkRep s' T' ∧ VOk T' (A ++ B)
  | 0, s, T, t, prev, f, r, o, ht, hh => by
    obtain ⟨h', p, y, t', rfl, hp, ey, hyv, hf, hdf, er, el, ex, g', okt, fr, sext⟩ :=
      removeLevel_run r.geo ar hv o ht hh
    have hlev : s.levels[0]? = some t.l := by rw [r.levels, List.getElem?_map, ht]; rfl
    have hext : (h'.node f).ext = none := by rw [sext]; exact r.geo.base t ht f hf
    refine ⟨{ s with heap := h' }, T.set 0 t', ?_, ⟨g', ?_, ?_⟩, o.drop ex⟩
    · unfold skRemoveLoop
      refine (sbind_ok (srun_levelAt hlev)).trans ?_
      refine (sbind_ok (srun_onHeap er)).trans ?_
      refine (sbind_ok (srun_onHeap (r := .ok (h'.lobj t.l).length) (h' := h') rfl)).trans ?_
      refine (sbind_ok (a := ()) (s' := { s with heap := h' }) ?_).trans ?_
      · simp [dropEmpty]
      refine (sbind_ok (srun_onHeap (run_getDown _ _))).trans ?_
      simp only [hext]
      refine (sbind_ok (srun_onHeap (r := .ok (some p)) (h' := h') rfl)).trans ?_
      rfl
    · show s.levels = _
      rw [set_map_l ht el]; exact r.levels
    · show s.numLevels = _
      rw [List.length_set]; exact r.num
  | k + 1, s, T, t, prev, f, r, o, ht, hh => by
    obtain ⟨h', p, y, t', rfl, hp, ey, hyv, hf, hdf, er, el, ex, g', okt, fr, sext⟩ :=
      removeLevel_run r.geo ar hv o ht hh
    have hk := get_lt ht
    have hlev : s.levels[k + 1]? = some t.l := by rw [r.levels, List.getElem?_map, ht]; rfl
    obtain ⟨b, hb⟩ : ∃ b, T[k]? = some b := ⟨_, List.getElem?_eq_getElem (by omega)⟩
    obtain ⟨df, hdf1, ef, edf⟩ := r.geo.downs k b t hb ht f hf
    obtain ⟨dp, hdp1, ep, edp⟩ := r.geo.downs k b t hb ht p hp
    have hbset : (T.set (k + 1) t')[k]? = some b := by
      rw [List.getElem?_set, if_neg (by omega), hb]
    have okb := g'.lvl k b hbset
    have hbn : ∀ a ∈ b.ns, h'.node a = h'.node a ∧ (h'.node a).data = (s.heap.node a).data := by
      intro a ha
      refine ⟨rfl, ?_⟩
      rw [fr.node a ((r.geo.lvl k b hb).1.bound a ha) ((r.geo.disj k (k + 1) b t (by omega) hb ht).1 a ha)]
    obtain ⟨q, eq, hq⟩ := nextPrev_run okb (p := p) (pd := dp) (f := df) (v := v) (y := y) hdf1
      (by rw [(hbn _ hdf1).2, edf, hdf]) (by rw [sext, ep]) hdp1 (by rw [(hbn _ hdp1).2, edp, ey]) hyv
    have hlen : (h'.lobj t.l).length = t'.xs.length + 1 := by
      have := okt.1.len
      rw [el, okt.1.length_eq] at this
      simpa using this
    have hif : ∃ s1 T1, dropEmpty (k + 1) (h'.lobj t.l).length { s with heap := h' } = (.ok (), s1) ∧ s1.heap = h' ∧ SkRep s1 T1 ∧
        VOk T1 (A ++ (v, k) :: B) ∧ T1[k]? = some b := by
      by_cases hx : t'.xs = []
      · obtain ⟨hT, o1⟩ := o.shrink (by rw [← ex]; exact hx)
        have hT1 : T.eraseIdx (k + 1) = (T.set (k + 1) t').take (k + 1) := by
          rw [List.eraseIdx_eq_take_drop_succ, List.drop_eq_nil_of_le (by omega), List.append_nil,
            List.take_set_of_le (by omega)]
        refine ⟨⟨h', s.levels.eraseIdx (k + 1), s.numLevels - 1⟩, T.eraseIdx (k + 1), ?_, rfl,
          ⟨by rw [hT1]; exact g'.take _, ?_, ?_⟩, o1, ?_⟩
        · unfold dropEmpty
          rw [if_pos ⟨by omega, by rw [hlen, hx]; rfl⟩]
          have h1 : 1 ≤ k + 1 ∧ k + 1 < s.numLevels := ⟨by omega, by rw [r.num]; exact hk⟩
          have h2 : k + 1 < s.levels.length := by rw [r.levels, List.length_map]; exact hk
          simp [removeLevel, h1, h2]
        · show s.levels.eraseIdx (k + 1) = _
          rw [r.levels]; simp [List.eraseIdx_eq_take_drop_succ]
        · show s.numLevels - 1 = _
          rw [r.num, List.length_eraseIdx, if_pos hk]
        · rw [List.getElem?_eraseIdx_of_lt (by omega), hb]
      · refine ⟨{ s with heap := h' }, T.set (k + 1) t', ?_, rfl, ⟨g', ?_, ?_⟩, o.down ex hx, hbset⟩
        · unfold dropEmpty
          rw [if_neg (by
            rintro ⟨_, h1⟩
            rw [hlen] at h1
            exact hx (List.eq_nil_of_length_eq_zero (by omega)))]
          rfl
        · show s.levels = _
          rw [set_map_l ht el]; exact r.levels
        · show s.numLevels = _
          rw [List.length_set]; exact r.num
    obtain ⟨s1, T1, e1, hh1, r1, o1, hb1⟩ := hif
    obtain ⟨s2, T2, e2, r2, o2⟩ := skRemoveLoop_run ar hv k s1 T1 b q df r1 o1 hb1 hq
    refine ⟨s2, T2, ?_, r2, o2⟩
    rw [skRemoveLoop.eq_def]
    refine (sbind_ok (srun_levelAt hlev)).trans ?_
    refine (sbind_ok (srun_onHeap er)).trans ?_
    refine (sbind_ok (srun_onHeap (r := .ok (h'.lobj t.l).length) (h' := h') rfl)).trans ?_
    refine (sbind_ok e1).trans ?_
    refine (sbind_ok (srun_onHeap (run_getDown _ _))).trans ?_
    have eD : (s1.heap.node f).ext = some df := by rw [hh1, sext, ef]
    rw [eD]
    refine (sbind_ok (srun_onHeap (r := .ok q) (h' := s1.heap) (by rw [hh1]; exact eq))).trans ?_
    exact e2

end Extra
