import Verif.Lists.Build

/-! # Contracts of `extend`, the constructor and the rotations -/

set_option linter.unusedSectionVars false
set_option linter.unusedSimpArgs false
attribute [local irreducible] Extra.upd

namespace Extra
variable {V X : Type} [PyData V] [Inhabited X]

/-! ## constructor -/

theorem initLoop_spec {k : Kind} {out : Addr} :
    ∀ (items : List (Item V)) (os : List Addr) {h : Heap V X} {ys : List V} {prev : Option Addr},
    Rep k h out os ys → (prev = os.getLast? ∨ os = []) →
    ∃ h' os' ys', Rep k h' out os' ys' ∧ Mut k h h' out os os' ∧ h'.nLists = h.nLists ∧
      match items.mapM validateItem with
      | .ok vs => initLoop k out prev items h = (.ok (), h') ∧ ys' = ys ++ vs.map PyData.norm
      | .error e => initLoop k out prev items h = (.error e, h')
  | [], os, h, ys, prev, r, _ =>
    ⟨h, os, ys, r, Mut.refl _ _ _ _, rfl, by simp [initLoop, pure, Except.pure]⟩
  | it :: items, os, h, ys, prev, r, hp => by
    cases hv : validateItem it with
    | error e =>
      refine ⟨h, os, ys, r, Mut.refl _ _ _ _, rfl, ?_⟩
      simp [List.mapM_cons, hv, bind, Except.bind]
      exact run_bind_err (by simp [hv])
    | ok v =>
      obtain ⟨h1, m, os1, e1, r1, m1, g1, l1, c1⟩ :=
        insertValue_spec (prev := prev) (as := os) (bs := []) (ys := ys) (zs := []) v
          (by simpa using r) r.length_eq (by simpa using hp)
      rw [List.append_nil] at m1 l1
      have hlast : os1.getLast? = some m := by
        rw [List.getLast?_eq_getElem?, l1]; simpa using g1
      obtain ⟨h2, os2, ys2, r2, m2, c2, e2⟩ := initLoop_spec items os1 (prev := some m) r1
        (Or.inl hlast.symm)
      refine ⟨h2, os2, ys2, r2, m1.trans m2, by omega, ?_⟩
      have hrun : initLoop k out prev (it :: items) h = initLoop k out (some m) items h1 := by
        simp only [initLoop, run_bind, hv, run_lift_ok, e1]
      simp only [List.mapM_cons, hv, bind, Except.bind]
      cases hm : items.mapM validateItem with
      | error e => rw [hm] at e2; simp only [hrun]; exact e2
      | ok vs =>
        rw [hm] at e2
        simp only [pure, Except.pure, hrun]
        exact ⟨e2.1, by rw [e2.2]; simp⟩

/-- `K(iterable)` -/
theorem initFrom_spec (k : Kind) (items : List (Item V)) (h : Heap V X) :
    match items.mapM validateItem with
    | .ok vs => ∃ h' l' ns', initFrom k items h = (.ok l', h') ∧
        Built k h h' l' ns' (vs.map PyData.norm)
    | .error e => ∃ h', initFrom k items h = (.error e, h') ∧
        Frame h h' (fun _ => False) (fun _ => False) := by
  obtain ⟨h1, e1, b1⟩ := newList_built k h
  obtain ⟨h2, os, ys, r2, m2, _, e2⟩ := initLoop_spec items [] (prev := none) b1.rep (Or.inr rfl)
  have b2 := b1.mut m2 r2
  cases hm : items.mapM validateItem with
  | error e =>
    rw [hm] at e2
    refine ⟨h2, ?_, b2.frame⟩
    simp only [initFrom, run_bind, e1, e2]
  | ok vs =>
    rw [hm] at e2
    obtain ⟨e2, rfl⟩ := e2
    refine ⟨h2, h.nLists, os, ?_, by simpa using b2⟩
    simp only [initFrom, run_bind, e1, e2, run_pure]

/-! ## extend -/

/-- `a.extend(b)` for distinct linked or doubly linked lists: `a` takes over the nodes of `b` -/
theorem extend_spec {k : Kind} (hk : k ≠ .cll) {h : Heap V X} {l o : Addr} {ns ms : List Addr}
    {xs ys : List V} (fuel : Nat) (r : Rep k h l ns xs) (ro : Rep k h o ms ys)
    (hd : ∀ a ∈ ns, a ∉ ms) (hlo : l ≠ o) :
    ∃ h', extend k fuel l o h = (.ok (), h') ∧ Rep k h' l (ns ++ ms) (xs ++ ys) ∧
      Frame h h' (fun a => a ∈ ns ∨ a ∈ ms) (· = l) ∧ h'.nNodes = h.nNodes ∧
      h'.nLists = h.nLists ∧ h'.lobj o = h.lobj o ∧ Same h h' ∧
      (∀ a ∈ ms, (h'.node a).next = (h.node a).next) := by
  have hnd : (ns ++ ms).Nodup :=
    List.nodup_append.2 ⟨r.nodup, ro.nodup, fun a ha b hb e => hd a ha (e ▸ hb)⟩
  have hnorm : ∀ z ∈ xs ++ ys, PyData.norm z = z := fun z hz => by
    rcases List.mem_append.1 hz with hz | hz
    · exact r.normed z hz
    · exact ro.normed z hz
  have hbd : ∀ a ∈ ns ++ ms, a < h.nNodes := fun z hz => by
    rcases List.mem_append.1 hz with hz | hz
    · exact r.bound z hz
    · exact ro.bound z hz
  have hlen := r.len
  have hlen' := ro.len
  have hend : ∀ q, endOf k q = none := fun q => by cases k <;> simp_all [endOf]
  have hlk := r.links; rw [hend] at hlk
  have hlk' := ro.links; rw [hend] at hlk'
  by_cases h0 : ms = []
  · subst h0
    have : ys = [] := List.eq_nil_of_length_eq_zero (by simpa using ro.length_eq.symm)
    subst this
    refine ⟨h, ?_, by simpa using r, Frame.refl _ _ _, rfl, rfl, rfl, fun _ => ⟨rfl, rfl⟩, by simp⟩
    simp at hlen'
    simp [extend, run_bind, hlen']
  · have hm0 : (h.lobj o).length ≠ 0 := by
      rw [hlen']; exact fun e => h0 (List.eq_nil_of_length_eq_zero e)
    have hoh := ro.head h0
    obtain ⟨m, ms, rfl⟩ := List.exists_cons_of_ne_nil h0
    simp only [List.head?_cons] at hoh
    by_cases hn : ns = []
    · subst hn
      have : xs = [] := List.eq_nil_of_length_eq_zero (by simpa using r.length_eq.symm)
      subst this
      simp at hlen
      obtain ⟨h', he, hN, hL, n1, n2⟩ : ∃ h', extend k fuel l o h = (.ok (), h') ∧
          h'.node = h.node ∧
          h'.lobj = upd h.lobj l ⟨(h.lobj o).head,
            if k = .dll then (h.lobj o).tail else (h.lobj l).tail, (h.lobj o).length⟩ ∧
          h'.nNodes = h.nNodes ∧ h'.nLists = h.nLists := by
        refine ⟨⟨h.node, upd h.lobj l ⟨(h.lobj o).head,
            if k = .dll then (h.lobj o).tail else (h.lobj l).tail, (h.lobj o).length⟩,
            h.nNodes, h.nLists⟩, ?_, rfl, rfl, rfl, rfl⟩
        cases k with
        | cll => exact absurd rfl hk
        | ll => simp [extend, run_bind, hm0, hlen, Heap.setList, upd_upd]
        | dll => simp [extend, run_bind, hm0, hlen, Heap.setList, upd_upd]
      refine ⟨h', he, ?_, ⟨fun a _ _ => by rw [hN], fun a _ ha => by rw [hL, upd_ne _ _ ha],
        by omega, by omega⟩, n1, n2, by rw [hL, upd_ne _ _ (Ne.symm hlo)],
        fun a => by rw [hN]; exact ⟨rfl, rfl⟩, fun a _ => by rw [hN]⟩
      rw [List.nil_append, List.nil_append]
      exact ⟨by rw [hL, upd_same]; exact hlen', by rw [hN]; exact ro.data, ro.normed, ro.nodup,
        by rw [n1]; exact ro.bound, by rw [n2]; exact r.lbound,
        fun hne => by rw [hL, upd_same]; exact ro.head hne,
        fun a ha => by rw [n1]; rw [hL, upd_same] at ha; exact ro.hbound a ha,
        ro.links.congr (fun a _ => by rw [hN]),
        fun hk => (ro.plinks hk).congr (fun a _ => by rw [hN]),
        fun hk hne => by rw [hL, upd_same]; simp only [hk, if_true]; exact ro.tail hk hne⟩
    · have hl0 : (h.lobj l).length ≠ 0 := by
        rw [hlen]; exact fun e => hn (List.eq_nil_of_length_eq_zero e)
      obtain ⟨as, p, rfl⟩ : ∃ as p, ns = as ++ [p] :=
        ⟨_, _, (List.dropLast_concat_getLast hn).symm⟩
      have hpm : p ≠ m := by
        rintro rfl; exact hd p (by simp) (by simp)
      have hpa : p ∉ as := by
        have := r.nodup
        rw [List.nodup_append] at this
        exact fun e => this.2.2 p e p (by simp) rfl
      have hpms : p ∉ ms := fun e => hd p (by simp) (by simp [e])
      have hma : m ∉ as := fun e => hd m (by simp [e]) (by simp)
      have hmm : m ∉ ms := (List.nodup_cons.1 ro.nodup).1
      obtain ⟨h', he, hN, hL, n1, n2⟩ : ∃ h', extend k fuel l o h = (.ok (), h') ∧
          h'.node = (if k = .dll then
            upd (upd h.node p { h.node p with next := some m }) m { h.node m with prev := some p }
            else upd h.node p { h.node p with next := some m }) ∧
          h'.lobj = upd h.lobj l ⟨(h.lobj l).head,
            if k = .dll then (h.lobj o).tail else (h.lobj l).tail,
            (h.lobj l).length + (h.lobj o).length⟩ ∧
          h'.nNodes = h.nNodes ∧ h'.nLists = h.nLists := by
        refine ⟨⟨(if k = .dll then
            upd (upd h.node p { h.node p with next := some m }) m { h.node m with prev := some p }
            else upd h.node p { h.node p with next := some m }), upd h.lobj l ⟨(h.lobj l).head,
            if k = .dll then (h.lobj o).tail else (h.lobj l).tail,
            (h.lobj l).length + (h.lobj o).length⟩, h.nNodes, h.nLists⟩, ?_, rfl, rfl, rfl, rfl⟩
        cases k with
        | cll => exact absurd rfl hk
        | ll =>
          obtain ⟨c, e1, _⟩ := getNode_spec (as := as ++ [p]) (bs := []) (by simpa using r)
          rw [← hlen] at e1
          simp only [extend, run_bind, run_getList, hm0, hl0, if_false, e1]
          simp [run_bind, setNext, hoh, Heap.setList, Heap.setNode]
        | dll =>
          have ht := r.tail rfl hn
          simp at ht
          simp [extend, run_bind, hm0, hl0, ht, hoh, Heap.setList, Heap.setNode, setNext, upd_upd,
            upd_ne _ _ (Ne.symm hpm)]
      have hp1 : (h'.node p).next = some m ∧ (h'.node p).prev = (h.node p).prev := by
        rw [hN]; split <;> simp [upd_ne _ _ hpm]
      have hm1 : (h'.node m).next = (h.node m).next ∧ (k = .dll → (h'.node m).prev = some p) := by
        rw [hN]; split <;> simp [upd_ne _ _ (Ne.symm hpm), *]
      have hot : ∀ a, a ≠ p → a ≠ m → h'.node a = h.node a := fun a h1 h2 => by
        rw [hN]; split <;> simp [upd_ne _ _ h1, upd_ne _ _ h2]
      have hs : Same h h' := by
        intro a
        rw [hN]
        by_cases h1 : a = p
        · subst h1; split <;> simp [upd_ne _ _ hpm]
        · by_cases h2 : a = m
          · subst h2; split <;> simp [upd_ne _ _ h1]
          · split <;> simp [upd_ne _ _ h1, upd_ne _ _ h2]
      refine ⟨h', he, ?_, ⟨fun a _ ha => hot a ?_ ?_, fun a _ ha => by rw [hL, upd_ne _ _ ha],
        by omega, by omega⟩, n1, n2, by rw [hL, upd_ne _ _ (Ne.symm hlo)], hs, ?_⟩
      · refine ⟨by rw [hL, upd_same]; simp only [hlen, hlen', List.length_append], ?_, hnorm, hnd,
          by rw [n1]; exact hbd, by rw [n2]; exact r.lbound, ?_, ?_, ?_, ?_, ?_⟩
        · rw [List.map_append, List.map_append (f := some), ← r.data, ← ro.data]
          simp only [(hs _).1]
        · intro _; rw [hL, upd_same]
          show (h.lobj l).head = _
          rw [r.head hn]; cases as <;> simp
        · intro a ha; rw [hL, upd_same] at ha; rw [n1]; exact r.hbound a ha
        · rw [hend, Lnk_append]
          rw [Lnk_append] at hlk ⊢
          refine ⟨⟨Lnk.congr (h := h) ?_ hlk.1, by simpa using hp1.1, trivial⟩,
            by rw [hm1.1]; exact hlk'.1, Lnk.congr (h := h) ?_ hlk'.2⟩
          · intro a ha
            rw [hot a (by rintro rfl; exact hpa ha) (by rintro rfl; exact hma ha)]
          · intro a ha
            rw [hot a (by rintro rfl; exact hpms ha) (by rintro rfl; exact hmm ha)]
        · intro hk
          have q := r.plinks hk
          have q' := ro.plinks hk
          rw [PLnk_append]
          rw [PLnk_append] at q ⊢
          refine ⟨⟨PLnk.congr (h := h) ?_ q.1, by rw [hp1.2]; exact q.2.1, trivial⟩,
            by rw [hm1.2 hk]; simp, PLnk.congr (h := h) ?_ q'.2⟩
          · intro a ha
            rw [hot a (by rintro rfl; exact hpa ha) (by rintro rfl; exact hma ha)]
          · intro a ha
            rw [hot a (by rintro rfl; exact hpms ha) (by rintro rfl; exact hmm ha)]
        · intro hk _; rw [hL, upd_same]; simp only [hk, if_true]
          rw [ro.tail hk h0]; simp [List.getLast?_append, List.getLast?_cons]
      · rintro rfl; exact ha (Or.inl (by simp))
      · rintro rfl; exact ha (Or.inr (by simp))
      · intro a ha
        rcases List.mem_cons.1 ha with rfl | hx
        · exact hm1.1
        · rw [hot a (by rintro rfl; exact hpms hx) (by rintro rfl; exact hmm hx)]

/-- the insertion loop of `CircularLinkedList.extend`, on distinct lists -/
theorem extendLoopCLL_spec {l o : Addr} (e : Option Addr) (hlo : l ≠ o) :
    ∀ (bs ns : List Addr) {h : Heap V X} {xs zs : List V} {counter fuel : Nat}
      {curr prev : Option Addr},
    Rep .cll h l ns xs → Src h bs zs e → o < h.nLists →
    counter + bs.length = (h.lobj o).length → bs.length < fuel →
    (bs ≠ [] → curr = bs.head?) → (prev = ns.getLast? ∨ ns = []) →
    (∀ a ∈ bs, ¬ Own .cll h l ns a) →
    ∃ h' ns', extendLoopCLL l o fuel counter curr prev h = (.ok (), h') ∧
      Rep .cll h' l ns' (xs ++ zs) ∧ Mut .cll h h' l ns ns' ∧ h'.nLists = h.nLists
  | [], ns, h, xs, zs, counter, fuel, curr, prev, r, s, ho, hc, hf, _, _, _ => by
    have : zs = [] := List.eq_nil_of_length_eq_zero s.length_eq.symm
    subst this
    obtain ⟨f, rfl⟩ : ∃ f, fuel = f + 1 := ⟨fuel - 1, by simp at hf; omega⟩
    simp at hc
    exact ⟨h, ns, by simp [extendLoopCLL, run_bind, ← hc], by simpa using r, Mut.refl _ _ _ _, rfl⟩
  | b :: bs, ns, h, xs, zs, counter, fuel, curr, prev, r, s, ho, hc, hf, hcur, hp, hd => by
    obtain ⟨z, zs, rfl⟩ := List.exists_cons_of_ne_nil (l := zs) (by
      rintro rfl; have := s.length_eq; simp at this)
    obtain ⟨f, rfl⟩ : ∃ f, fuel = f + 1 := ⟨fuel - 1, by omega⟩
    have hcur := hcur (by simp)
    simp only [List.head?_cons] at hcur
    subst hcur
    obtain ⟨d, nx, nz, s'⟩ := Src.uncons s
    -- the two statements `Node(item)` and `_insert_node` amount to `_insert_value`
    obtain ⟨h1, m, ns1, e1, r1, m1, g1, l1, c1⟩ :=
      insertValue_spec (prev := prev) (as := ns) (bs := []) (ys := xs) (zs := []) z
        (by simpa using r) r.length_eq (by simpa using hp)
    rw [nz] at r1
    rw [List.append_nil] at m1 l1
    have hlast : ns1.getLast? = some m := by
      rw [List.getLast?_eq_getElem?, l1]; simpa using g1
    have s1 := s.frame m1.frame hd
    have nx1 : (h1.node b).next = bs.head?.or e := by
      rw [m1.frame.node b (s.bound b (by simp)) (hd b (by simp))]; exact nx
    have ho1 : h1.lobj o = h.lobj o := m1.frame.lobj o ho (Ne.symm hlo)
    have hd1 : ∀ a ∈ bs, ¬ Own .cll h1 l ns1 a := by
      intro a ha hx
      rcases m1.own a hx with h2 | h2
      · exact hd a (by simp [ha]) h2
      · exact Nat.not_lt.2 h2 (s'.bound a ha)
    simp only [List.length_cons] at hc hf
    obtain ⟨h2, ns2, e2, r2, m2, c2⟩ := extendLoopCLL_spec e hlo bs ns1 (prev := some m)
      (curr := (h1.node b).next) (counter := counter + 1) (fuel := f) r1 s1.uncons.2.2.2
      (by omega) (by rw [ho1]; omega) (by omega)
      (by intro hne; rw [nx1]; cases bs <;> simp_all) (Or.inl hlast.symm) hd1
    refine ⟨h2, ns2, ?_, by simpa using r2, m1.trans m2, by omega⟩
    have hlt : counter < (h.lobj o).length := by omega
    -- `new_node` itself is passed on as `prev_node`; it is the node returned by `_insert_node`
    simp only [insertValue, run_bind] at e1
    obtain ⟨ha, ea, na, oa, La, ba, ca⟩ := newNode_run (default : X) z h
    rw [ea] at e1
    simp only [insertNode] at e1
    have hm : m = h.nNodes := by
      have hn : h.nNodes ∉ ns ++ [] := fun e => by
        simp at e; exact Nat.lt_irrefl _ (r.bound _ e)
      have fa : Frame h ha (fun _ => False) (fun _ => False) :=
        ⟨fun a hx _ => oa a (Nat.ne_of_lt hx), fun _ _ _ => by rw [La], by omega, by omega⟩
      obtain ⟨h9, m9, ns9, e9, _, _, _, _, _, _, h7, _⟩ :=
        insertNodeCLL_spec (as := ns) (bs := []) (ys := xs) (zs := []) (n := h.nNodes)
          (v := PyData.norm z) (prev := prev)
          (by simpa using r.frame fa (by simp) (by simp)) r.length_eq hn (by omega) (by rw [na])
          (PyData.norm_norm z) (by simpa using hp)
      rw [e9] at e1
      simp only [Prod.mk.injEq, Except.ok.injEq] at e1
      rw [← e1.1]
      apply h7
      by_cases hx : ns = []
      · left; simp [hx]
      · right; exact hx
    subst hm
    simp only [extendLoopCLL, run_bind, run_getList, hlt, if_true, run_getData, d, run_pure, ea, e1,
      run_getNext, e2]

theorem extendCLL_spec {h : Heap V X} {l o : Addr} {ns ms : List Addr}
    {xs ys : List V} {fuel : Nat} (hf : ys.length < fuel)
    (r : Rep .cll h l ns xs) (ro : Rep .cll h o ms ys)
    (hd : ∀ a ∈ ms, ¬ Own .cll h l ns a) (hlo : l ≠ o) :
    ∃ h' ns', extend .cll fuel l o h = (.ok (), h') ∧ Rep .cll h' l ns' (xs ++ ys) ∧
      Mut .cll h h' l ns ns' ∧ h'.nLists = h.nLists := by
  have hlen' := ro.len
  by_cases h0 : ms = []
  · subst h0
    have : ys = [] := List.eq_nil_of_length_eq_zero (by simpa using ro.length_eq.symm)
    subst this
    simp at hlen'
    exact ⟨h, ns, by simp [extend, run_bind, hlen'], by simpa using r, Mut.refl _ _ _ _, rfl⟩
  · have hm0 : (h.lobj o).length ≠ 0 := by
      rw [hlen']; exact fun e => h0 (List.eq_nil_of_length_eq_zero e)
    obtain ⟨p, c, e1, hc⟩ : ∃ p c, getNodeLoop ((h.lobj l).length - 1) none
        (if (h.lobj l).length = 0 then none else (h.lobj l).head) h = (.ok (p, c), h) ∧
        (c = ns.getLast? ∨ ns = []) := by
      by_cases hn : ns = []
      · subst hn
        have := r.len
        simp at this
        exact ⟨none, none, by simp [getNodeLoop, this], Or.inr rfl⟩
      · obtain ⟨as, q, rfl⟩ : ∃ as q, ns = as ++ [q] :=
          ⟨_, _, (List.dropLast_concat_getLast hn).symm⟩
        have hl : (h.lobj l).length = as.length + 1 := by rw [r.len]; simp
        have hh := r.head hn
        have := getNodeLoop_spec (p := none) (c := (h.lobj l).head) r.links
          (by intro hne; rw [hh]; cases as <;> simp_all)
        refine ⟨_, _, by rw [hl]; simpa using this, Or.inl ?_⟩
        by_cases ha : as = []
        · subst ha; simp [hh]
        · simp [ha]
    obtain ⟨h', ns', e2, r2, m2, c2⟩ := extendLoopCLL_spec (endOf .cll ms) hlo ms ns
      (counter := 0) (fuel := fuel) (curr := (h.lobj o).head) (prev := c) r ro.src ro.lbound
      (by rw [hlen']; omega) (by rw [ro.length_eq]; exact hf) ro.head hc hd
    refine ⟨h', ns', ?_, r2, m2, c2⟩
    simp only [extend, run_bind, run_getList, hm0, if_false, e1, e2]

end Extra
