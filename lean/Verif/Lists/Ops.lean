import Verif.Lists.Remove

/-! # Contracts of the mutating methods, one list at a time -/

set_option linter.unusedSectionVars false
set_option linter.unusedSimpArgs false
attribute [local irreducible] Extra.upd

namespace Extra
variable {V X : Type} [PyData V] [Inhabited X]

/-- the nodes a list object can write to: its own nodes and, for a circular list, the stale
head left behind when it was emptied -/
def Own (k : Kind) (h : Heap V X) (l : Addr) (ns : List Addr) (a : Addr) : Prop :=
  a ∈ ns ∨ (k = .cll ∧ (h.lobj l).head = some a)

theorem Rep.own_bound {k : Kind} {h : Heap V X} {l : Addr} {ns : List Addr} {xs : List V}
    (r : Rep k h l ns xs) {a : Addr} (ha : Own k h l ns a) : a < h.nNodes := by
  rcases ha with ha | ⟨_, ha⟩
  · exact r.bound a ha
  · exact r.hbound a ha

/-- a step that only touches list `l` and what it owns, plus new nodes -/
structure Mut (k : Kind) (h h' : Heap V X) (l : Addr) (ns ns' : List Addr) : Prop where
  frame : Frame h h' (Own k h l ns) (· = l)
  own : ∀ a, Own k h' l ns' a → Own k h l ns a ∨ h.nNodes ≤ a

theorem Mut.refl (k : Kind) (h : Heap V X) (l : Addr) (ns : List Addr) : Mut k h h l ns ns :=
  ⟨Frame.refl _ _ _, fun _ => Or.inl⟩

theorem Mut.trans {k : Kind} {h h' h'' : Heap V X} {l : Addr} {ns ns' ns'' : List Addr}
    (m : Mut k h h' l ns ns') (m' : Mut k h' h'' l ns' ns'') : Mut k h h'' l ns ns'' := by
  refine ⟨m.frame.trans m'.frame ?_ (fun _ _ => id), ?_⟩
  · intro a ha h1
    rcases m.own a h1 with h2 | h2
    · exact h2
    · exact absurd ha (Nat.not_lt.2 h2)
  · intro a ha
    rcases m'.own a ha with h1 | h1
    · exact m.own a h1
    · exact Or.inr (Nat.le_trans m.frame.nNodes h1)

theorem mem_of_head? {a : Addr} {ns : List Addr} (h : ns.head? = some a) : a ∈ ns :=
  List.mem_of_mem_head? h

/-- when the list is not empty, its head is one of its nodes -/
theorem Rep.own_mem {k : Kind} {h : Heap V X} {l : Addr} {ns : List Addr} {xs : List V}
    (r : Rep k h l ns xs) (hne : ns ≠ []) {a : Addr} (ha : Own k h l ns a) : a ∈ ns := by
  rcases ha with ha | ⟨_, ha⟩
  · exact ha
  · rw [r.head hne] at ha; exact mem_of_head? ha

theorem newNode_run (x : X) (v : V) (h : Heap V X) :
    ∃ h', newNode x v h = (.ok h.nNodes, h') ∧
      h'.node h.nNodes = ⟨some (PyData.norm v), none, none, x⟩ ∧
      (∀ a, a ≠ h.nNodes → h'.node a = h.node a) ∧ h'.lobj = h.lobj ∧
      h'.nNodes = h.nNodes + 1 ∧ h'.nLists = h.nLists :=
  ⟨_, rfl, by simp, fun _ ha => by simp [upd_ne _ _ ha], rfl, rfl, rfl⟩

/-- the value stored at a node inserted by `_insert_value` -/
theorem insertValue_spec {k : Kind} {h : Heap V X} {l : Addr} {as bs : List Addr}
    {ys zs : List V} {prev : Option Addr} (v : V)
    (r : Rep k h l (as ++ bs) (ys ++ zs)) (hlen : as.length = ys.length)
    (hp : prev = as.getLast? ∨ as ++ bs = []) :
    ∃ h' m ns', insertValue k l prev v h = (.ok m, h') ∧
      Rep k h' l ns' (ys ++ PyData.norm v :: zs) ∧ Mut k h h' l (as ++ bs) ns' ∧
      ns'[as.length]? = some m ∧ ns'.length = (as ++ bs).length + 1 ∧ h'.nLists = h.nLists := by
  obtain ⟨h1, e1, n1, o1, L1, b1, c1⟩ := newNode_run (default : X) v h
  have f1 : Frame h h1 (fun _ => False) (fun _ => False) :=
    ⟨fun a ha _ => o1 a (Nat.ne_of_lt ha), fun _ _ _ => by rw [L1], by omega, by omega⟩
  have r1 := r.frame f1 (by simp) (by simp)
  have hn : h.nNodes ∉ as ++ bs := fun e => Nat.lt_irrefl _ (r.bound _ e)
  obtain ⟨h2, m, ns', e2, r2, p2, g2, f2, b2, c2, _, _⟩ :=
    insertNode_spec (n := h.nNodes) (v := PyData.norm v) r1 hlen hn (by omega) (by rw [n1])
      (PyData.norm_norm v) (by rw [n1]) (by rw [n1]) hp
  have hne : ns' ≠ [] := by rintro rfl; simp at g2
  refine ⟨h2, m, ns', ?_, r2, ⟨?_, ?_⟩, g2, by simpa using p2.length_eq, by omega⟩
  · rw [insertValue, run_bind_ok e1, e2]
  · refine (f1.mono (S' := Own k h l (as ++ bs)) (L' := (· = l)) (by simp) (by simp)).trans f2
      ?_ (fun _ _ => id)
    rintro a ha (h3 | rfl)
    · exact Or.inl h3
    · exact absurd ha (Nat.lt_irrefl _)
  · intro a ha
    have := p2.mem_iff.1 (r2.own_mem hne ha)
    rcases List.mem_cons.1 this with rfl | h3
    · exact Or.inr (Nat.le_refl _)
    · exact Or.inl (Or.inl h3)

theorem split_at_len {α : Type} (l : List α) {i : Nat} (hi : i ≤ l.length) :
    ∃ as bs, l = as ++ bs ∧ as.length = i :=
  ⟨l.take i, l.drop i, (List.take_append_drop i l).symm, by simp [hi]⟩

theorem insertIdx_append {α : Type} (ys zs : List α) (v : α) :
    (ys ++ zs).insertIdx ys.length v = ys ++ v :: zs := by
  induction ys with
  | nil => simp
  | cons y ys ih => simp [ih]

/-- `_insert(i, v)` for `0 ≤ i ≤ len` -/
theorem insertAt_spec {k : Kind} {h : Heap V X} {l : Addr} {ns : List Addr} {xs : List V}
    (r : Rep k h l ns xs) {i : Nat} (hi : i ≤ xs.length) (v : V) :
    ∃ h' ns', insertAt k l i v h = (.ok (), h') ∧
      Rep k h' l ns' (xs.insertIdx i (PyData.norm v)) ∧ Mut k h h' l ns ns' ∧
      h'.nLists = h.nLists := by
  obtain ⟨as, bs, rfl, ha⟩ := split_at_len ns (i := i) (by rw [r.length_eq]; exact hi)
  obtain ⟨ys, zs, rfl, hy⟩ := split_at_len xs hi
  obtain ⟨c, e1, _⟩ := getNode_spec r
  obtain ⟨h', m, ns', e2, r2, m2, _, _, hL⟩ := insertValue_spec v r (ha.trans hy.symm) (Or.inl rfl)
  subst hy
  refine ⟨h', ns', ?_, by rw [insertIdx_append]; exact r2, m2, hL⟩
  rw [ha] at e1
  rw [insertAt, run_bind_ok e1]
  simp only
  rw [run_bind_ok e2, run_pure]

theorem addFront_spec {k : Kind} {h : Heap V X} {l : Addr} {ns : List Addr} {xs : List V}
    (r : Rep k h l ns xs) (v : V) :
    ∃ h' ns', addFront k l (.val v) h = (.ok (), h') ∧
      Rep k h' l ns' (PyData.norm v :: xs) ∧ Mut k h h' l ns ns' ∧ h'.nLists = h.nLists := by
  obtain ⟨h', ns', e, r', m, hL⟩ := insertAt_spec r (Nat.zero_le _) v
  exact ⟨h', ns', by rw [addFront, validateItem, run_bind, run_lift_ok]; exact e, by simpa using r', m, hL⟩

theorem addEnd_spec {k : Kind} {h : Heap V X} {l : Addr} {ns : List Addr} {xs : List V}
    (r : Rep k h l ns xs) (v : V) :
    ∃ h' ns', addEnd k l (.val v) h = (.ok (), h') ∧
      Rep k h' l ns' (xs ++ [PyData.norm v]) ∧ Mut k h h' l ns ns' ∧ h'.nLists = h.nLists := by
  obtain ⟨h', ns', e, r', m, hL⟩ := insertAt_spec r (Nat.le_refl _) v
  refine ⟨h', ns', ?_, ?_, m, hL⟩
  · simp only [addEnd, validateItem, run_bind, run_lift_ok, llLen, run_getList, run_pure]
    rw [r.len, r.length_eq]; exact e
  · have := insertIdx_append xs [] (PyData.norm v)
    rw [List.append_nil] at this
    rwa [this] at r'

/-- `_remove_node` only touches what the list owns -/
theorem removeNode_mut {k : Kind} {h : Heap V X} {l : Addr} {as bs : List Addr}
    {ys zs : List V} {n : Addr} {x : V}
    (r : Rep k h l (as ++ n :: bs) (ys ++ x :: zs)) (hlen : as.length = ys.length) :
    ∃ h', removeNode k l as.getLast? n h = (.ok (), h') ∧
      Rep k h' l (leftNodes k as n bs) (ys ++ zs) ∧
      Mut k h h' l (as ++ n :: bs) (leftNodes k as n bs) ∧ h'.nLists = h.nLists := by
  obtain ⟨h', e2, r2, f2, b2, c2, _⟩ := removeNode_spec r hlen
  refine ⟨h', e2, r2, ⟨f2.mono (fun _ _ => Or.inl) (fun _ _ => id), ?_⟩, c2⟩
  rintro a (h1 | ⟨hk, h1⟩)
  · exact Or.inl (Or.inl (leftNodes_subset h1))
  · by_cases hne : leftNodes k as n bs = []
    · -- the list became empty: `_head` was not written
      subst hk
      have : as = [] ∧ bs = [] := by
        unfold leftNodes at hne; split at hne
        · simp at hne
        · simpa using hne
      obtain ⟨rfl, rfl⟩ := this
      left; left
      have hb := r.head (by simp)
      have hlen := r.len
      simp only [List.nil_append, List.length_singleton, List.head?_cons] at hlen hb
      have e3 := e2
      simp [removeNode, removeNodeCLL, run_bind, hlen, hb] at e3
      rw [← e3] at h1
      simp at h1
      simp [h1]
    · rw [r2.head hne] at h1
      exact Or.inl (Or.inl (leftNodes_subset (mem_of_head? h1)))

/-- `_remove_idx(i)` for `0 ≤ i < len` -/
theorem removeIdx_spec {k : Kind} {h : Heap V X} {l : Addr} {ns : List Addr} {xs : List V}
    (r : Rep k h l ns xs) {i : Nat} (hi : i < xs.length) :
    ∃ h' ns', removeIdx k l i h = (.ok (), h') ∧
      Rep k h' l ns' (xs.eraseIdx i) ∧ Mut k h h' l ns ns' ∧ h'.nLists = h.nLists := by
  obtain ⟨as, bs, rfl, ha⟩ := split_at_len ns (i := i) (by rw [r.length_eq]; omega)
  obtain ⟨ys, zs, rfl, hy⟩ := split_at_len xs (i := i) (by omega)
  have hlen := r.length_eq
  simp only [List.length_append] at hlen hi
  obtain ⟨b, bs, rfl⟩ := List.exists_cons_of_ne_nil (l := bs) (by rintro rfl; simp at hlen; omega)
  obtain ⟨z, zs, rfl⟩ := List.exists_cons_of_ne_nil (l := zs) (by rintro rfl; simp at hi; omega)
  obtain ⟨c, e1, hc⟩ := getNode_spec r
  have hc := hc (by simp)
  simp only [List.head?_cons, Option.some_or] at hc
  subst hc
  obtain ⟨h', e2, r2, m2, c2⟩ := removeNode_mut r (ha.trans hy.symm)
  rw [ha] at e1
  refine ⟨h', leftNodes k as b bs, ?_, ?_, m2, c2⟩
  · rw [removeIdx, run_bind_ok e1]
    exact e2
  · have : (ys ++ z :: zs).eraseIdx i = ys ++ zs := by
      rw [← hy, List.eraseIdx_append_of_length_le (Nat.le_refl _)]; simp
    rw [this]; exact r2

/-- the node after `as` -/
theorem Rep.next_of_last {k : Kind} {h : Heap V X} {l : Addr} {as bs : List Addr} {xs : List V}
    (r : Rep k h l (as ++ bs) xs) (hb : bs ≠ []) {p : Addr} (hp : as.getLast? = some p) :
    (h.node p).next = bs.head? := by
  rcases List.eq_nil_or_concat as with rfl | ⟨as', q, rfl⟩
  · simp at hp
  · simp only [List.concat_eq_append, List.getLast?_append, List.getLast?_singleton,
      Option.some_or, Option.some.injEq] at hp
    subst hp
    have := r.links
    rw [List.concat_eq_append, List.append_assoc, Lnk_append] at this
    have := this.2.1
    obtain ⟨b, bs, rfl⟩ := List.exists_cons_of_ne_nil hb
    simpa using this

theorem removeValueLoop_spec {k : Kind} {l : Addr} (v : V) (all : Bool) :
    ∀ (bs as : List Addr) {h : Heap V X} {ys zs : List V} (curr : Option Addr) (found : Bool),
    Rep k h l (as ++ bs) (ys ++ zs) → as.length = ys.length → (bs ≠ [] → curr = bs.head?) →
    ∃ h' ns', removeValueLoop k l v all bs.length as.getLast? curr found h = (.ok (), h') ∧
      Rep k h' l ns' (ys ++ if all = true then zs.filter (fun z => decide (z ≠ v))
        else if found = true then zs else zs.erase v) ∧
      Mut k h h' l (as ++ bs) ns' ∧ h'.nLists = h.nLists := by
  intro bs
  induction hn : bs.length generalizing bs with
  | zero =>
    intro as h ys zs curr found r hlen _
    have hb : bs = [] := List.eq_nil_of_length_eq_zero hn
    subst hb
    have hz : zs = [] := by
      have := r.length_eq; simp at this
      exact List.eq_nil_of_length_eq_zero (by omega)
    subst hz
    exact ⟨h, as ++ [], by simp [removeValueLoop], by simpa using r, Mut.refl _ _ _ _, rfl⟩
  | succ n ih =>
    intro as h ys zs curr found r hlen hcurr
    obtain ⟨b, bs, rfl⟩ := List.exists_cons_of_ne_nil (l := bs) (by rintro rfl; simp at hn)
    obtain ⟨z, zs, rfl⟩ := List.exists_cons_of_ne_nil (l := zs) (by
      rintro rfl; have := r.length_eq; simp at this; omega)
    have hcurr := hcurr (by simp)
    simp only [List.head?_cons] at hcurr
    subst hcurr
    simp only [List.length_cons, Nat.add_right_cancel_iff] at hn
    by_cases hstop : all = false ∧ found = true
    · refine ⟨h, _, by simp [removeValueLoop, hstop], ?_, Mut.refl _ _ _ _, rfl⟩
      simpa [hstop] using r
    · have hd : (h.node b).data = some z := (data_remove hlen r.data).2.1
      by_cases hz : z = v
      · subst hz
        obtain ⟨h1, e1, r1, m1, c1⟩ := removeNode_mut r hlen
        have hsplit : leftNodes k as b bs = as ++ (leftNodes k as b bs).drop as.length := by
          conv => lhs; rw [← List.take_append_drop as.length (leftNodes k as b bs), leftNodes_take]
        generalize hbs : (leftNodes k as b bs).drop as.length = bs' at hsplit
        rw [hsplit] at r1 m1
        have hlen' : bs'.length = n := by
          have h1 := r1.length_eq; have h2 := r.length_eq
          simp at h1 h2; omega
        -- the pointer re-read after the removal
        obtain ⟨c, hc, hc'⟩ : ∃ c, nextAfter l as.getLast? h1 = (.ok c, h1) ∧ (bs' ≠ [] → c = bs'.head?) := by
          cases hl : as.getLast? with
          | none =>
            have : as = [] := by simpa using hl
            subst this
            exact ⟨_, rfl, fun hne => r1.head (by simpa using hne)⟩
          | some p => exact ⟨_, rfl, fun hne => r1.next_of_last hne hl⟩
        obtain ⟨h2, ns2, e2, r2, m2, c2⟩ := ih bs' hlen' as c true r1 hlen hc'
        refine ⟨h2, ns2, ?_, ?_, m1.trans m2, by omega⟩
        · simp only [removeValueLoop, hstop, if_false, run_bind, run_getData, hd, if_true,
            run_deref_some, e1, hc, e2]
        · cases all <;> simp_all
      · have hnx : bs ≠ [] → (h.node b).next = bs.head? := by
          intro hne
          have : as ++ b :: bs = (as ++ [b]) ++ bs := by simp
          rw [this] at r
          exact r.next_of_last hne (by simp)
        have e : as ++ b :: bs = (as ++ [b]) ++ bs := by simp
        have e' : ys ++ z :: zs = (ys ++ [z]) ++ zs := by simp
        rw [e, e'] at r
        obtain ⟨h2, ns2, e2, r2, m2, c2⟩ := ih bs hn (as ++ [b]) ((h.node b).next) found r
          (by simp [hlen]) hnx
        refine ⟨h2, ns2, ?_, ?_, by rw [e]; exact m2, c2⟩
        · simp only [removeValueLoop, hstop, if_false, run_bind, run_getData, hd,
            Option.some.injEq, hz, run_getNext]
          simpa using e2
        · cases all
          · cases found
            · simpa [List.erase_cons, hz] using r2
            · exact absurd ⟨rfl, rfl⟩ hstop
          · simpa [hz] using r2

theorem remove_spec {k : Kind} {h : Heap V X} {l : Addr} {ns : List Addr} {xs : List V}
    (r : Rep k h l ns xs) (v : V) (all : Bool) :
    ∃ h' ns', remove k l (.val v) (some all) h = (.ok (), h') ∧
      Rep k h' l ns' (if all = true then xs.filter (fun z => decide (z ≠ v)) else xs.erase v) ∧
      Mut k h h' l ns ns' ∧ h'.nLists = h.nLists := by
  obtain ⟨h', ns', e, r', m, c⟩ := removeValueLoop_spec v all ns [] (ys := []) (zs := xs)
    (h.lobj l).head false (by simpa using r) rfl r.head
  refine ⟨h', ns', ?_, by simpa using r', by simpa using m, c⟩
  simp only [remove, validateItem, run_bind, run_lift_ok, run_getList, r.len]
  exact e

/-- `_replace_value(i, v)` for `0 ≤ i < len` -/
theorem replaceValue_spec {k : Kind} {h : Heap V X} {l : Addr} {ns : List Addr} {xs : List V}
    (r : Rep k h l ns xs) {i : Nat} (hi : i < xs.length) (v : V) :
    ∃ h', replaceValue k l i v h = (.ok (), h') ∧
      Rep k h' l ns (xs.set i (PyData.norm v)) ∧ Mut k h h' l ns ns ∧ h'.nLists = h.nLists := by
  obtain ⟨as, bs, rfl, ha⟩ := split_at_len ns (i := i) (by rw [r.length_eq]; omega)
  obtain ⟨ys, zs, rfl, hy⟩ := split_at_len xs (i := i) (by omega)
  have hlen := r.length_eq
  simp only [List.length_append] at hlen hi
  obtain ⟨b, bs, rfl⟩ := List.exists_cons_of_ne_nil (l := bs) (by rintro rfl; simp at hlen; omega)
  obtain ⟨z, zs, rfl⟩ := List.exists_cons_of_ne_nil (l := zs) (by rintro rfl; simp at hi; omega)
  obtain ⟨c, e1, hc⟩ := getNode_spec r
  have hc := hc (by simp)
  simp only [List.head?_cons, Option.some_or] at hc
  subst hc
  rw [ha] at e1
  obtain ⟨h', he, hN, hL, n1, n2⟩ : ∃ h', replaceValue k l i v h = (.ok (), h') ∧
      h'.node = upd h.node b { h.node b with data := some (PyData.norm v) } ∧
      h'.lobj = h.lobj ∧ h'.nNodes = h.nNodes ∧ h'.nLists = h.nLists := by
    refine ⟨⟨upd h.node b { h.node b with data := some (PyData.norm v) }, h.lobj, h.nNodes,
      h.nLists⟩, ?_, rfl, rfl, rfl, rfl⟩
    rw [replaceValue, run_bind_ok e1]
    simp [run_bind, setData, Heap.setNode]
  have hnx : ∀ a, (h'.node a).next = (h.node a).next ∧ (h'.node a).prev = (h.node a).prev :=
    fun a => by by_cases e : a = b <;> simp [hN, upd, e]
  have hnd := r.nodup
  rw [List.perm_middle.nodup_iff, List.nodup_cons] at hnd
  simp only [List.mem_append, not_or] at hnd
  obtain ⟨d1, d2, d3⟩ := data_remove (ha.trans hy.symm) r.data
  have hset : (ys ++ z :: zs).set i (PyData.norm v) = ys ++ PyData.norm v :: zs := by
    rw [← hy]; simp
  refine ⟨h', he, ?_, ⟨⟨?_, ?_, by omega, by omega⟩, ?_⟩, n2⟩
  · rw [hset]
    refine ⟨by rw [hL]; exact r.len, ?_, ?_, r.nodup, by rw [n1]; exact r.bound,
      by rw [n2]; exact r.lbound, by rw [hL]; exact r.head, by rw [hL, n1]; exact r.hbound,
      r.links.congr (fun a _ => (hnx a).1), fun hk => (r.plinks hk).congr (fun a _ => (hnx a).2),
      by rw [hL]; exact r.tail⟩
    · rw [List.map_append, List.map_append (f := some), List.map_cons, List.map_cons, ← d1, ← d3]
      congr 1
      · exact List.map_congr_left (fun a ha => by
          rw [hN, upd_ne _ _ (by rintro rfl; exact hnd.1.1 ha)])
      · congr 1
        · simp [hN]
        · exact List.map_congr_left (fun a ha => by
            rw [hN, upd_ne _ _ (by rintro rfl; exact hnd.1.2 ha)])
    · intro y hy
      simp only [List.mem_append, List.mem_cons] at hy
      rcases hy with hy | rfl | hy
      · exact r.normed y (by simp [hy])
      · exact PyData.norm_norm v
      · exact r.normed y (by simp [hy])
  · intro a _ ha
    rw [hN, upd_ne _ _ (by rintro rfl; exact ha (Or.inl (by simp)))]
  · intro a _ _; rw [hL]
  · rintro a ha; left; simpa [Own, hL] using ha

theorem clear_spec {k : Kind} {h : Heap V X} {l : Addr} {ns : List Addr} {xs : List V}
    (r : Rep k h l ns xs) :
    ∃ h', clear l h = (.ok (), h') ∧ Rep k h' l [] [] ∧ Mut k h h' l ns [] ∧
      h'.nLists = h.nLists := by
  obtain ⟨h', he, hN, hL, n1, n2⟩ : ∃ h', clear l h = (.ok (), h') ∧ h'.node = h.node ∧
      h'.lobj = upd h.lobj l ⟨none, none, 0⟩ ∧ h'.nNodes = h.nNodes ∧ h'.nLists = h.nLists := by
    refine ⟨⟨h.node, upd h.lobj l ⟨none, none, 0⟩, h.nNodes, h.nLists⟩, ?_, rfl, rfl, rfl, rfl⟩
    simp [clear, run_bind, Heap.setList, upd_upd]
  refine ⟨h', he, ⟨by simp [hL], by simp, by simp, by simp, by simp, by rw [n2]; exact r.lbound,
    by simp, by simp [hL], trivial, fun _ => trivial, by simp⟩,
    ⟨⟨fun a _ _ => by rw [hN], fun a _ ha => by rw [hL, upd_ne _ _ ha], by omega, by omega⟩, ?_⟩, n2⟩
  simp [Own, hL]

end Extra
