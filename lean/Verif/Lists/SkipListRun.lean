import Verif.Lists.SkipListSteps

/-! # Runs of `insert` and `remove` on a skip list (no property content) -/

set_option linter.unusedSectionVars false
set_option linter.unusedSimpArgs false
attribute [local irreducible] Extra.upd

namespace Extra
variable {N : Type} [LinearOrder N] [OrderBot N]
attribute [local instance] numData

theorem sbind_ok {α β : Type} {m : SM N α} {f : α → SM N β} {s s' : SkipList N} {a : α}
    (e : m s = (.ok a, s')) : (m >>= f) s = f a s' := by rw [srun_bind, e]

theorem LvlOk.setExt {h h' : SHeap N} {t : Lvl N} (o : LvlOk h t)
    (hn : ∀ a, (h'.node a).data = (h.node a).data ∧ (h'.node a).next = (h.node a).next)
    (hl : h'.lobj = h.lobj) (e1 : h'.nNodes = h.nNodes) (e2 : h'.nLists = h.nLists) :
    LvlOk h' t := by
  obtain ⟨r, s⟩ := o
  refine ⟨⟨by rw [hl]; exact r.len, ?_, r.normed, r.nodup, by rw [e1]; exact r.bound,
    by rw [e2]; exact r.lbound, by rw [hl]; exact r.head, by rw [hl, e1]; exact r.hbound,
    r.links.congr (fun a _ => (hn a).2), (nomatch ·), (nomatch ·)⟩, s⟩
  rw [← r.data]
  exact List.map_congr_left (fun a _ => (hn a).1)

/-- `newNode` followed by `_insert_node` behind the node where the search left the level -/
theorem insertLevel_run {h : SHeap N} {T : List (Lvl N)} {i : Nat} {t : Lvl N} {v : N} {f : Addr}
    (g : Geo h T) (ht : T[i]? = some t) (hm : Miss t v f) :
    ∃ h1 h2 ns' ys zs, newNode none v h = (.ok h.nNodes, h1) ∧
      insertNode .ll t.l (some f) h.nNodes h1 = (.ok h.nNodes, h2) ∧
      t.xs = ys ++ zs ∧ (∀ y ∈ ys, y < v) ∧ (∀ z ∈ zs, v < z) ∧
      LvlOk h2 ⟨t.l, ns', ys ++ v :: zs⟩ ∧ Frame h h2 (fun a => a ∈ t.ns) (· = t.l) ∧
      (∀ a, a ∈ ns' ↔ a = h.nNodes ∨ a ∈ t.ns) ∧
      (∀ a, a < h.nNodes →
        (h2.node a).data = (h.node a).data ∧ (h2.node a).ext = (h.node a).ext) ∧
      (h2.node h.nNodes).ext = none ∧ (h2.node h.nNodes).data = some v ∧
      h2.nNodes = h.nNodes + 1 ∧ h2.nLists = h.nLists := by
  obtain ⟨as, bs, ys, zs, e1, e2, e3, p1, p2⟩ := hm
  obtain ⟨h1, en, nn, no, nl, n1, n2⟩ := newNode_run (none : Option Addr) v h
  have fr1 : Frame h h1 (fun _ => False) (fun _ => False) :=
    ⟨fun a ha _ => no a (by omega), fun l _ _ => by rw [nl], by omega, by omega⟩
  have o := g.lvl i t ht
  have r1 := o.1.frame fr1 (fun _ _ e => e) (fun e => e)
  rw [e1, e2] at r1
  have hnot : h.nNodes ∉ (as ++ [f]) ++ bs := by
    intro hh
    rw [← e1] at hh
    have := o.1.bound _ hh
    omega
  obtain ⟨h2, ei, r2, f2, s2, m1, m2⟩ := insertNodeLL_spec (prev := some f) (n := h.nNodes) (v := v)
    r1 e3 hnot (by omega) (by rw [nn]; rfl) rfl (Or.inl (by simp))
  cases ys with
  | nil => simp at e3
  | cons y ys =>
    simp only [List.cons_append, List.cons.injEq] at e2
    obtain ⟨rfl, e2⟩ := e2
    refine ⟨h1, h2, (as ++ [f]) ++ h.nNodes :: bs, ys, zs, en, ei, e2,
      fun y hy => p1 y (List.mem_cons_of_mem _ hy), p2, ⟨r2, ?_⟩, ?_, ?_, ?_, ?_, ?_, ?_, ?_⟩
    · have hs := o.2
      rw [e2, ← List.cons_append] at hs
      have hs := List.pairwise_append.1 hs
      rw [← List.cons_append, List.pairwise_append]
      refine ⟨hs.1, List.pairwise_cons.2 ⟨p2, hs.2.1⟩, ?_⟩
      intro x hx z hz
      rcases List.mem_cons.1 hz with rfl | hz
      · exact p1 x hx
      · exact hs.2.2 x hx z hz
    · refine (fr1.mono (fun _ _ e => e.elim) (fun _ _ e => e.elim)).trans f2 ?_ (fun _ _ e => e)
      intro a ha hh
      rcases hh with hh | hh
      · rw [e1]; exact hh
      · omega
    · intro a
      rw [e1]
      simp only [List.mem_append, List.mem_cons, List.mem_singleton, List.not_mem_nil, or_false]
      tauto
    · intro a ha
      have := s2 a
      rw [no a (by omega)] at this
      exact this
    · rw [(s2 _).2, nn]
    · rw [(s2 _).1, nn]; rfl
    · omega
    · omega

/-- how a level splits around a number -/
theorem split_unique {v : N} {ys zs ys' zs' : List N} (e : ys ++ zs = ys' ++ zs')
    (h1 : ∀ y ∈ ys, y < v) (h2 : ∀ z ∈ zs, v < z) (h1' : ∀ y ∈ ys', y < v)
    (h2' : ∀ z ∈ zs', v < z) : ys = ys' ∧ zs = zs' := by
  have f1 : ∀ l : List N, (∀ y ∈ l, y < v) → l.filter (fun x => decide (x < v)) = l :=
    fun l hl => List.filter_eq_self.2 (fun a ha => by simpa using hl a ha)
  have f2 : ∀ l : List N, (∀ y ∈ l, v < y) → l.filter (fun x => decide (x < v)) = [] :=
    fun l hl => List.filter_eq_nil_iff.2 (fun a ha => by simpa using (hl a ha).le)
  have := congrArg (List.filter (fun x => decide (x < v))) e
  rw [List.filter_append, List.filter_append, f1 _ h1, f1 _ h1', f2 _ h2, f2 _ h2'] at this
  simp only [List.append_nil] at this
  subst this
  exact ⟨rfl, List.append_cancel_left e⟩

/-- the abstract state: strictly increasing numbers above `-inf` -/
def TowerOk (st : List (N × Nat)) : Prop := (⊥ :: towerVals st).Pairwise (· < ·)

/-- `st` is split around `v` -/
structure Around (v : N) (A B : List (N × Nat)) : Prop where
  lo : ∀ e ∈ A, e.1 < v
  hi : ∀ e ∈ B, v < e.1

theorem Around.level_lo {v : N} {A B : List (N × Nat)} (r : Around v A B) (i : Nat) :
    ∀ y ∈ towerLevel A i, y < v := by
  intro y hy
  obtain ⟨e, he, rfl⟩ := List.mem_map.1 hy
  exact r.lo e (List.mem_filter.1 he).1

theorem Around.level_hi {v : N} {A B : List (N × Nat)} (r : Around v A B) (i : Nat) :
    ∀ z ∈ towerLevel B i, v < z := by
  intro y hy
  obtain ⟨e, he, rfl⟩ := List.mem_map.1 hy
  exact r.hi e (List.mem_filter.1 he).1

theorem Around.not_mem {v : N} {A B : List (N × Nat)} (r : Around v A B) (i : Nat) :
    v ∉ towerLevel A i ++ towerLevel B i := by
  intro h
  rcases List.mem_append.1 h with h | h
  · exact absurd (r.level_lo i v h) (lt_irrefl v)
  · exact absurd (r.level_hi i v h) (lt_irrefl v)

theorem set_map_l {T : List (Lvl N)} {i : Nat} {t t' : Lvl N} (ht : T[i]? = some t)
    (e : t'.l = t.l) : (T.set i t').map Lvl.l = T.map Lvl.l := by
  apply List.ext_getElem?
  intro j
  rw [List.getElem?_map, List.getElem?_map, List.getElem?_set]
  by_cases hj : i = j
  · subst hj
    have hlt : i < T.length := by
      by_contra hh
      rw [List.getElem?_eq_none (by omega)] at ht
      cases ht
    rw [if_pos rfl, if_pos hlt, ht]; simp [e]
  · simp [hj]

theorem get_lt {α : Type} {T : List α} {i : Nat} {t : α} (ht : T[i]? = some t) : i < T.length := by
  by_contra hh
  rw [List.getElem?_eq_none (by omega)] at ht
  cases ht

/-- `_promote` onto level `k + 1` -/
theorem promote_run {s : SkipList N} {T : List (Lvl N)} {b t : Lvl N} {v : N} {k : Nat}
    {p curr : Addr} (r : SkRep s T) (hb : T[k]? = some b) (ht : T[k + 1]? = some t)
    (hc : curr ∈ b.ns) (hd : (s.heap.node curr).data = some v) (hm : Miss t v p) :
    ∃ s' n ns' ys zs, promote p curr k s = (.ok n, s') ∧ t.xs = ys ++ zs ∧
      (∀ y ∈ ys, y < v) ∧ (∀ z ∈ zs, v < z) ∧
      SkRep s' (T.set (k + 1) ⟨t.l, ns', ys ++ v :: zs⟩) ∧ n ∈ ns' ∧
      (s'.heap.node n).data = some v := by
  obtain ⟨h1, h2, ns', ys, zs, e1, e2, ex, p1, p2, o, f, ens, same, x1, x2, m1, m2⟩ :=
    insertLevel_run r.geo ht hm
  have hk := get_lt hb
  have hk1 := get_lt ht
  have hcb := (r.geo.lvl _ b hb).1.bound _ hc
  have hlev : s.levels[k + 1]? = some t.l := by rw [r.levels, List.getElem?_map, ht]; rfl
  generalize hn : s.heap.nNodes = n at *
  have run : promote p curr k s =
      (.ok n, { s with heap := h2.setNode n { h2.node n with ext := some curr } }) := by
    have hkn : k < s.numLevels := by rw [r.num]; exact hk
    unfold promote
    refine (sbind_ok (srun_getNum s)).trans ?_
    rw [if_pos hkn]
    refine (sbind_ok (srun_onHeap (run_getData curr s.heap))).trans ?_
    rw [hd]
    refine (sbind_ok (srun_onHeap e1)).trans ?_
    refine (sbind_ok (srun_levelAt (s := { s with heap := h1 }) hlev)).trans ?_
    refine (sbind_ok (srun_onHeap e2)).trans ?_
    refine (sbind_ok (srun_onHeap (r := .ok ())
      (h' := h2.setNode n { h2.node n with ext := some curr }) rfl)).trans ?_
    rfl
  have node_eq : ∀ a, a ≠ n →
      (h2.setNode n { h2.node n with ext := some curr }).node a = h2.node a := by
    intro a ha
    simp [upd_ne _ _ ha]
  have node_n : (h2.setNode n { h2.node n with ext := some curr }).node n =
      { h2.node n with ext := some curr } := by simp
  have o' : LvlOk (h2.setNode n { h2.node n with ext := some curr })
      ⟨t.l, ns', ys ++ v :: zs⟩ := by
    refine o.setExt ?_ rfl rfl rfl
    intro a
    by_cases ha : a = n
    · subst ha; rw [node_n]; exact ⟨rfl, rfl⟩
    · rw [node_eq a ha]; exact ⟨rfl, rfl⟩
  refine ⟨_, n, ns', ys, zs, run, ex, p1, p2, ⟨?_, ?_, ?_⟩, (ens n).2 (Or.inl rfl), ?_⟩
  · refine Geo.insert (n := n) (dn := some curr) (v := v) r.geo ht o' ?_ rfl ens (by omega) ?_
      (by rw [node_n]) (by rw [node_n]; exact x2) (fun e => by omega) ?_
    · refine ⟨fun a ha hs => ?_, fun l hl hs => ?_, f.nNodes, f.nLists⟩
      · have : a ≠ n := by omega
        rw [node_eq a this]
        exact f.node a ha hs
      · exact f.lobj l hl hs
    · intro a ha
      rw [node_eq a (by omega)]
      exact same a (by omega)
    · intro j b' hj hb'
      have : j = k := by omega
      subst this
      rw [hb] at hb'
      cases hb'
      exact ⟨curr, hc, rfl, hd⟩
  · show s.levels = _
    rw [set_map_l ht (t' := ⟨t.l, ns', ys ++ v :: zs⟩) rfl]; exact r.levels
  · show s.numLevels = _
    rw [List.length_set]; exact r.num
  · show ((h2.setNode n _).node n).data = some v
    rw [node_n]; exact x2

theorem newLevel_run (h : SHeap N) :
    ∃ h', newLevel h = (.ok h.nLists, h') ∧ LvlOk h' ⟨h.nLists, [h.nNodes], []⟩ ∧
      Frame h h' (fun _ => False) (fun _ => False) ∧ (h'.node h.nNodes).ext = none ∧
      (h'.node h.nNodes).data = some ⊥ ∧ (h'.lobj h.nLists).head = some h.nNodes ∧
      h'.nNodes = h.nNodes + 1 ∧ h'.nLists = h.nLists + 1 := by
  obtain ⟨h1, e1, r1, _, f1, a1, a2⟩ := newList_run (V := N) .ll h
  obtain ⟨h2, e2, nn, no, nl, b1, b2⟩ := newNode_run (none : Option Addr) (⊥ : N) h1
  have f2 : Frame h1 h2 (fun _ => False) (fun _ => False) :=
    ⟨fun a ha _ => no a (by omega), fun l _ _ => by rw [nl], by omega, by omega⟩
  have r2 := r1.frame f2 (fun _ _ e => e) (fun e => e)
  obtain ⟨h3, e3, r3, f3, s3, c1, c2⟩ := insertNodeLL_spec (as := []) (bs := []) (ys := [])
    (zs := []) (n := h1.nNodes) (v := (⊥ : N)) (prev := (h1.lobj h.nLists).head) r2 rfl (by simp)
    (by omega) (by rw [nn]; rfl) rfl (Or.inr rfl)
  refine ⟨h3, ?_, ⟨?_, by simp⟩, ?_, ?_, ?_, ?_, by omega, by omega⟩
  · unfold newLevel
    refine (run_bind_ok e1).trans ?_
    refine (run_bind_ok (run_getList _ _)).trans ?_
    refine (run_bind_ok e2).trans ?_
    refine (run_bind_ok e3).trans ?_
    rfl
  · rw [← a2]; exact r3
  · refine ⟨fun a ha _ => ?_, fun l hl _ => ?_, by omega, by omega⟩
    · rw [f3.node a (by omega) (by simp; omega), f2.node a (by omega) (fun e => e),
        f1.node a ha (fun e => e)]
    · rw [f3.lobj l (by omega) (by omega), f2.lobj l (by omega) (fun e => e),
        f1.lobj l hl (fun e => e)]
  · rw [← a2, (s3 _).2, nn]
  · rw [← a2, (s3 _).1, nn]; rfl
  · have := r3.head (by simp)
    rw [this, ← a2]; rfl

/-- `_add_extra_level` -/
theorem addLevel_run {s : SkipList N} {T : List (Lvl N)} {k : Nat} (r : SkRep s T)
    (hk : T.length = k + 1) :
    ∃ s' l n, addLevel s = (.ok l, s') ∧ SkRep s' (T ++ [⟨l, [n], []⟩]) ∧
      (s'.heap.lobj l).head = some n ∧
      (∀ a, a < s.heap.nNodes → s'.heap.node a = s.heap.node a) := by
  obtain ⟨t, ht⟩ : ∃ t, T[k]? = some t := ⟨_, List.getElem?_eq_getElem (by omega)⟩
  have o := r.geo.lvl k t ht
  obtain ⟨h1, e1, o1, f1, x1, x2, x3, m1, m2⟩ := newLevel_run s.heap
  have hlen := o.1.length_eq
  obtain ⟨d, ds, ed⟩ := List.exists_cons_of_ne_nil (l := t.ns) (by intro e; simp [e] at hlen)
  have hd : (h1.lobj t.l).head = some d := by
    rw [(o.1.frame f1 (fun _ _ e => e) (fun e => e)).head (by simp [ed]), ed]; rfl
  have hlev : s.levels[s.numLevels - 1]? = some t.l := by
    rw [r.levels, r.num, hk, List.getElem?_map, Nat.add_sub_cancel, ht]; rfl
  generalize hn : s.heap.nNodes = n at *
  generalize hl : s.heap.nLists = l at *
  have node_eq : ∀ a, a ≠ n →
      (h1.setNode n { h1.node n with ext := some d }).node a = h1.node a := by
    intro a ha
    simp [upd_ne _ _ ha]
  have node_n : (h1.setNode n { h1.node n with ext := some d }).node n =
      { h1.node n with ext := some d } := by simp
  refine ⟨⟨h1.setNode n { h1.node n with ext := some d }, s.levels ++ [l], s.numLevels + 1⟩, l, n,
    ?_, ⟨?_, ?_, ?_⟩, x3, ?_⟩
  · unfold addLevel
    refine (sbind_ok (srun_getNum s)).trans ?_
    refine (sbind_ok (srun_levelAt hlev)).trans ?_
    refine (sbind_ok (srun_onHeap e1)).trans ?_
    refine (sbind_ok (srun_onHeap (run_getList _ _))).trans ?_
    simp only [x3]
    refine (sbind_ok (srun_onHeap (run_deref_some _ _))).trans ?_
    refine (sbind_ok (srun_onHeap (run_getList _ _))).trans ?_
    simp only [hd]
    refine (sbind_ok (srun_onHeap (r := .ok ())
      (h' := h1.setNode n { h1.node n with ext := some d }) rfl)).trans ?_
    rfl
  · refine Geo.push r.geo hk ht ?_ ?_ (by omega) (by omega) ed (by rw [node_n])
      (by rw [node_n]; exact x2)
    · refine o1.setExt ?_ rfl rfl rfl
      intro a
      by_cases ha : a = n
      · subst ha; rw [node_n]; exact ⟨rfl, rfl⟩
      · rw [node_eq a ha]; exact ⟨rfl, rfl⟩
    · refine ⟨fun a ha _ => ?_, fun l' hl' _ => f1.lobj l' hl' (fun e => e), f1.nNodes, f1.nLists⟩
      rw [node_eq a (by omega)]
      exact f1.node a ha (fun e => e)
  · show s.levels ++ [l] = _
    rw [r.levels]; simp
  · show s.numLevels + 1 = _
    rw [r.num]; simp
  · intro a ha
    show (h1.setNode n _).node a = _
    rw [node_eq a (by omega)]
    exact f1.node a (by omega) (fun e => e)

/-- the loop of `insert` -/
theorem promoteLoop_run {A B : List (N × Nat)} {v : N} (ar : Around v A B) (hv : v ≠ ⊥)
    (last : List Addr) :
    ∀ (heads k : Nat) (s : SkipList N) (T : List (Lvl N)) (b : Lvl N) (curr : Addr), SkRep s T →
    VOk T (A ++ (v, k) :: B) → T[k]? = some b → curr ∈ b.ns →
    (s.heap.node curr).data = some v →
    (∀ i u, k ≤ i → T[i + 1]? = some u → ∃ f, last[i]? = some f ∧ Miss u v f) →
    ∃ s' T', promoteLoop last heads k curr s = (.ok (), s') ∧ SkRep s' T' ∧
      VOk T' (A ++ (v, k + heads) :: B)
  | 0, k, s, T, b, curr, r, o, hb, hc, hd, hl => ⟨s, T, rfl, r, o⟩
  | heads + 1, k, s, T, b, curr, r, o, hb, hc, hd, hl => by
    have hk := get_lt hb
    by_cases htop : T.length - 1 ≤ k
    · have hk1 : T.length = k + 1 := by omega
      obtain ⟨s1, l, n, e1, r1, x3, hsame⟩ := addLevel_run r hk1
      have ht1 : (T ++ [(⟨l, [n], []⟩ : Lvl N)])[k + 1]? = some ⟨l, [n], []⟩ := by
        rw [← hk1, List.getElem?_concat_length]
      have hb1 : (T ++ [(⟨l, [n], []⟩ : Lvl N)])[k]? = some b := by
        rw [List.getElem?_append_left hk, hb]
      have hcb := (r.geo.lvl _ b hb).1.bound _ hc
      have hm : Miss (⟨l, [n], []⟩ : Lvl N) v n :=
        ⟨[], [], [⊥], [], rfl, rfl, rfl, by simpa using bot_lt_iff_ne_bot.2 hv, by simp⟩
      obtain ⟨s2, n2, ns', ys, zs, e2, ex, p1, p2, r2, hn2, d2⟩ :=
        promote_run r1 hb1 ht1 hc (by rw [hsame _ hcb, hd]) hm
      obtain ⟨rfl, rfl⟩ := List.append_eq_nil_iff.1 ex.symm
      have eT : (T ++ [(⟨l, [n], []⟩ : Lvl N)]).set (k + 1) ⟨l, ns', [v]⟩ =
          T ++ [⟨l, ns', [v]⟩] := by
        rw [← hk1, List.set_append_right _ _ (Nat.le_refl _)]; simp
      simp only [List.nil_append] at r2
      rw [eT] at r2
      obtain ⟨s3, T3, e3, r3, o3⟩ := promoteLoop_run ar hv last heads (k + 1) s2 _ ⟨l, ns', [v]⟩ n2 r2
        (o.grow hk1.symm rfl) (by rw [← hk1, List.getElem?_concat_length]) hn2 d2 (by
          intro i u hi hu
          rw [List.getElem?_eq_none (by simp; omega)] at hu
          cases hu)
      refine ⟨s3, T3, ?_, r3, by rw [show k + (heads + 1) = k + 1 + heads by omega]; exact o3⟩
      unfold promoteLoop
      refine (sbind_ok (srun_getNum s)).trans ?_
      rw [if_pos (by rw [r.num]; exact htop)]
      refine (sbind_ok e1).trans ?_
      refine (sbind_ok (srun_onHeap (run_getList _ _))).trans ?_
      simp only [x3]
      exact (sbind_ok e2).trans e3
    · obtain ⟨t, ht⟩ : ∃ t, T[k + 1]? = some t := ⟨_, List.getElem?_eq_getElem (by omega)⟩
      obtain ⟨f, ef, hm⟩ := hl k t (Nat.le_refl _) ht
      obtain ⟨s2, n2, ns', ys, zs, e2, ex, p1, p2, r2, hn2, d2⟩ := promote_run r hb ht hc hd hm
      have hx := o.get ht
      have hnk : ¬ k + 1 ≤ k := by omega
      rw [towerLevel_append, towerLevel_cons, if_neg hnk, ex] at hx
      obtain ⟨hA, hB⟩ := split_unique hx p1 p2 (ar.level_lo _) (ar.level_hi _)
      obtain ⟨s3, T3, e3, r3, o3⟩ := promoteLoop_run ar hv last heads (k + 1) s2 _
        ⟨t.l, ns', ys ++ v :: zs⟩ n2 r2
        (o.up (by omega) (by rw [hA, hB])) (by
          rw [List.getElem?_set, if_pos rfl, if_pos (by omega)]) hn2 d2 (by
          intro i u hi hu
          rw [List.getElem?_set, if_neg (by omega)] at hu
          exact hl i u (by omega) hu)
      refine ⟨s3, T3, ?_, r3, by rw [show k + (heads + 1) = k + 1 + heads by omega]; exact o3⟩
      unfold promoteLoop
      refine (sbind_ok (srun_getNum s)).trans ?_
      rw [if_neg (by rw [r.num]; exact htop)]
      simp only [ef]
      exact (sbind_ok e2).trans e3

end Extra
