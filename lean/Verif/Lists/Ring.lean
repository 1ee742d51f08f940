import Verif.Lists.MixedStart

/-!
# Lemmas for `LinkedList()`s whose last node does not end the chain

`LinkedList(cll)` takes over the nodes of a `CircularLinkedList()`, the last of which points back at the
first.  All calls that change a list walk by the counter `_length`, not until `None`.
-/

set_option linter.unusedSectionVars false
attribute [local irreducible] Extra.upd

namespace Extra
variable {V X : Type} [PyData V] [Inhabited X]

/-- one changing call on the `LinkedList()` at `l`, all of whose nodes are of class `Node`
(linked_list.py:1265-1782) -/
def ringStep (l : Addr) : XOp V → M V X Unit
  | .addFront it => addFront .ll l it
  | .addEnd it => addEnd .ll l it
  | .insert i it => insert .ll l i it
  | .setItem i it => setItem .ll l i it
  | .delItem i => delItem .ll l i
  | .removeFront => removeFront .ll l
  | .removeEnd => removeEnd .ll l
  | .remove it all => remove .ll l it all
  | .clear => clear l

/-- a run of calls: the results, and the heap at the end -/
def ringSteps (l : Addr) : List (XOp V) → Heap V X → List (Except Err Unit) × Heap V X
  | [], h => ([], h)
  | op :: ops, h =>
    let (r, h1) := ringStep l op h
    let (rs, h2) := ringSteps l ops h1
    (r :: rs, h2)

/-- the `LinkedList()` at `l` has the items `xs` in the nodes `ns`, and the last node points at `e` -/
structure RingRep (h : Heap V X) (l : Addr) (ns : List Addr) (xs : List V) (e : Option Addr) :
    Prop where
  len : (h.lobj l).length = ns.length
  head : ns ≠ [] → (h.lobj l).head = ns.head?
  nodup : ns.Nodup
  src : Src h ns xs e

variable {h : Heap V X} {l : Addr} {ns as bs : List Addr} {xs ys zs : List V} {e : Option Addr}

theorem RingRep.length_eq (r : RingRep h l ns xs e) : ns.length = xs.length := r.src.length_eq

theorem RingRep.lenobj (r : RingRep h l ns xs e) : (h.lobj l).length = xs.length := by
  rw [r.len, r.length_eq]

theorem RingRep.toList (r : RingRep h l ns xs e) : Extra.toList l h = (.ok (xs.map some), h) := by
  simp only [Extra.toList, run_bind, run_getList, r.len]
  exact iterLoop_spec ns r.src r.head

theorem RingRep.getNode (r : RingRep h l (as ++ bs) xs e) :
    ∃ c, Extra.getNode .ll l as.length h = (.ok (as.getLast?, c), h) ∧
      (bs ≠ [] → c = bs.head?) := by
  have := getNodeLoop_spec (p := none) (c := (h.lobj l).head) r.src.links
    (by intro hne; rw [r.head (by simp [hne])]; cases as <;> simp_all)
  refine ⟨_, by simp only [Extra.getNode, run_bind, run_getList]; rw [this]; simp; rfl, ?_⟩
  intro hne
  by_cases ha : as = []
  · subst ha
    have := r.head (by simpa using hne)
    cases bs <;> simp_all
  · obtain ⟨b, bs, rfl⟩ := List.exists_cons_of_ne_nil hne
    simp [ha]

/-- the node after `as` -/
theorem RingRep.next_of_last (r : RingRep h l (as ++ bs) xs e) (hb : bs ≠ []) {p : Addr}
    (hp : as.getLast? = some p) : (h.node p).next = bs.head? := by
  rcases List.eq_nil_or_concat as with rfl | ⟨as', q, rfl⟩
  · simp at hp
  · simp only [List.concat_eq_append, List.getLast?_append, List.getLast?_singleton,
      Option.some_or, Option.some.injEq] at hp
    subst hp
    have := r.src.links
    rw [List.concat_eq_append, List.append_assoc, Lnk_append] at this
    have := this.2.1
    obtain ⟨b, bs, rfl⟩ := List.exists_cons_of_ne_nil hb
    simpa using this

/-! ## Putting in -/

theorem RingRep.insertAt (r : RingRep h l ns xs e) {i : Nat} (hi : i ≤ xs.length) (v : V) :
    ∃ h' ns' e', Extra.insertAt .ll l i v h = (.ok (), h') ∧
      RingRep h' l ns' (xs.insertIdx i (PyData.norm v)) e' := by
  obtain ⟨as, bs, rfl, ha⟩ := split_at_len ns (i := i) (by rw [r.length_eq]; omega)
  obtain ⟨ys, zs, rfl, hy⟩ := split_at_len xs hi
  obtain ⟨c, e1, _⟩ := r.getNode
  rw [ha] at e1
  obtain ⟨h1, e2, n1, o1, L1, b1, cc1⟩ := newNode_run (default : X) v h
  have hlt : ∀ a ∈ as ++ bs, a ≠ h.nNodes := fun a hm => Nat.ne_of_lt (r.src.bound a hm)
  have ho1 : ∀ a ∈ as ++ bs, h1.node a = h.node a := fun a hm => o1 a (hlt a hm)
  have hdat := r.src.data
  obtain ⟨d1, d2⟩ := List.append_inj (by simpa only [List.map_append] using hdat)
    (by simpa using ha.trans hy.symm)
  have hins : (ys ++ zs).insertIdx i (PyData.norm v) = ys ++ PyData.norm v :: zs := by
    rw [← hy, insertIdx_append]
  have hnorm : ∀ y ∈ ys ++ PyData.norm v :: zs, PyData.norm y = y := by
    intro y hy
    simp only [List.mem_append, List.mem_cons] at hy
    rcases hy with hy | rfl | hy
    · exact r.src.normed y (by simp [hy])
    · exact PyData.norm_norm v
    · exact r.src.normed y (by simp [hy])
  have hnd : (as ++ h.nNodes :: bs).Nodup := by
    rw [List.perm_middle.nodup_iff, List.nodup_cons]
    exact ⟨fun hm => hlt _ hm rfl, r.nodup⟩
  rw [hins]
  -- it suffices to describe the heap after the writes
  have fin : ∀ (h' : Heap V X) (e' : Option Addr),
      insertNodeLL l as.getLast? h.nNodes h1 = (.ok h.nNodes, h') →
      (h'.lobj l).length = (as ++ bs).length + 1 → (h'.lobj l).head = (as ++ h.nNodes :: bs).head? →
      (∀ a, (h'.node a).data = (h1.node a).data) → h'.nNodes = h1.nNodes →
      Lnk h' (as ++ h.nNodes :: bs) e' →
      ∃ h' ns' e', Extra.insertAt .ll l i v h = (.ok (), h') ∧
        RingRep h' l ns' (ys ++ PyData.norm v :: zs) e' := by
    intro h' e' he hL hH hD hN hK
    refine ⟨h', as ++ h.nNodes :: bs, e', ?_, by rw [hL]; simp; omega, fun _ => hH, hnd, hK, ?_, hnorm, ?_⟩
    · rw [Extra.insertAt, run_bind_ok e1]
      simp only [insertValue, run_bind_ok e2, insertNode, run_bind, he, run_pure]
    · simp only [hD, List.map_append, List.map_cons, n1]
      rw [← d1, ← d2]
      congr 1
      · exact List.map_congr_left (fun a hm => by rw [ho1 a (by simp [hm])])
      · congr 1
        exact List.map_congr_left (fun a hm => by rw [ho1 a (by simp [hm])])
    · intro a hm
      rw [hN, b1]
      simp only [List.mem_append, List.mem_cons] at hm
      rcases hm with hm | rfl | hm
      · exact Nat.lt_succ_of_lt (r.src.bound a (by simp [hm]))
      · exact Nat.lt_succ_self _
      · exact Nat.lt_succ_of_lt (r.src.bound a (by simp [hm]))
  have hl := r.len
  have hlk := r.src.links
  by_cases h0 : as ++ bs = []
  · obtain ⟨rfl, rfl⟩ := List.append_eq_nil_iff.1 h0
    simp only [List.append_nil, List.length_nil] at hl
    refine fin ((h1.setNode h.nNodes { h1.node h.nNodes with next := none }).setList l
      ⟨some h.nNodes, (h.lobj l).tail, 1⟩) none ?_ (by simp) (by simp) (fun a => ?_) rfl ?_
    · simp [insertNodeLL, run_bind, L1, hl, setNext, Heap.setNode, Heap.setList, upd_upd]
    · by_cases hx : a = h.nNodes <;> simp [upd, hx]
    · simp [Lnk]
  · have hl0 : (h1.lobj l).length ≠ 0 := by
      rw [L1, hl]; exact fun e => h0 (List.eq_nil_of_length_eq_zero e)
    rcases List.eq_nil_or_concat as with rfl | ⟨as', p, rfl⟩
    · simp only [List.nil_append] at *
      have hhd := r.head h0
      refine fin ((h1.setNode h.nNodes { h1.node h.nNodes with next := (h.lobj l).head }).setList l
        ⟨some h.nNodes, (h.lobj l).tail, (h.lobj l).length + 1⟩) e ?_ (by simp [hl]) (by simp)
        (fun a => ?_) rfl ⟨?_, Lnk.congr (h := h) ?_ hlk⟩
      · rw [L1] at hl0
        simp [insertNodeLL, run_bind, hl0, L1, setNext, Heap.setNode, Heap.setList, upd_upd]
      · by_cases hx : a = h.nNodes <;> simp [upd, hx]
      · obtain ⟨b, bs, rfl⟩ := List.exists_cons_of_ne_nil h0
        simp [hhd]
      · intro a hm
        simp [upd, hlt a hm, ho1 a hm]
    · simp only [List.concat_eq_append, List.getLast?_append, List.getLast?_singleton,
        Option.some_or] at *
      have hpn : p ≠ h.nNodes := hlt p (by simp)
      rw [List.append_assoc, List.singleton_append] at hlk
      obtain ⟨l1, l2, l3⟩ := Lnk_append.1 hlk
      have hpa : p ∉ as' ∧ p ∉ bs := by
        have h2 := r.nodup
        rw [List.append_assoc, List.singleton_append, List.perm_middle.nodup_iff, List.nodup_cons] at h2
        simpa using h2.1
      refine fin (((h1.setNode h.nNodes { h1.node h.nNodes with next := (h1.node p).next }).setNode p
        { h1.node p with next := some h.nNodes }).setList l
        { h.lobj l with length := (h.lobj l).length + 1 }) e ?_ (by simp [hl]) ?_ (fun a => ?_) rfl ?_
      · rw [L1] at hl0
        simp [insertNodeLL, run_bind, hl0, L1, setNext, Heap.setNode, Heap.setList,
          upd_ne _ _ hpn]
      · simp only [setList_lobj, upd_same]
        rw [r.head h0]; cases as' <;> simp
      · by_cases hx : a = p
        · simp [hx]
        · by_cases hb : a = h.nNodes <;> simp [upd, hx, hb, hpn.symm]
      · rw [List.append_assoc, Lnk_append]
        refine ⟨Lnk.congr (h := h) ?_ l1, ?_, ?_, Lnk.congr (h := h) ?_ l3⟩
        · intro a hm
          have h1 : a ≠ p := by rintro rfl; exact hpa.1 hm
          simp [upd, h1, hlt a (by simp [hm]), ho1 a (by simp [hm])]
        · simp
        · simp [upd, hpn.symm, ho1 p (by simp), l2]
        · intro a hm
          have h1 : a ≠ p := by rintro rfl; exact hpa.2 hm
          simp [upd, h1, hlt a (by simp [hm]), ho1 a (by simp [hm])]

/-! ## Taking out -/

theorem RingRep.removeNode {n : Addr} {x : V} (r : RingRep h l (as ++ n :: bs) (ys ++ x :: zs) e)
    (hlen : as.length = ys.length) :
    ∃ h', Extra.removeNode .ll l as.getLast? n h = (.ok (), h') ∧
      RingRep h' l (leftNodes .ll as n bs) (ys ++ zs) e := by
  have hl := r.len
  have hnd := r.nodup
  have hlk := r.src.links
  obtain ⟨d1, d2, d3⟩ := data_remove hlen r.src.data
  have hnorm : ∀ y ∈ ys ++ zs, PyData.norm y = y := fun y hy => r.src.normed y (by
    simp at hy ⊢; rcases hy with hy | hy <;> simp [hy])
  rcases List.eq_nil_or_concat as with rfl | ⟨as', p, rfl⟩
  · have hys : ys = [] := List.eq_nil_of_length_eq_zero (by simpa using hlen.symm)
    subst hys
    simp only [List.nil_append, List.getLast?_nil] at *
    have hhd := r.head (by simp)
    simp only [List.head?_cons] at hhd
    cases bs with
    | nil =>
      have hz : zs = [] := by simpa using d3
      subst hz
      simp only [List.length_singleton] at hl
      refine ⟨(h.setNode n { h.node n with data := none }).setList l { h.lobj l with length := 0 }, ?_,
        ?_⟩
      · simp [Extra.removeNode, removeNodeLL, run_bind, hl, hhd]
      · simp only [leftNodes, List.append_nil]
        exact ⟨by simp, by simp, by simp, trivial, by simp, by simp, by simp⟩
    | cons b bs =>
      obtain ⟨z, zs', rfl⟩ : ∃ z zs', zs = z :: zs' := by
        cases zs with
        | nil => simp at d3
        | cons z zs' => exact ⟨z, zs', rfl⟩
      simp only [List.map_cons, List.cons.injEq] at d3
      have hz : PyData.norm z = z := hnorm z (by simp)
      have hnb : n ≠ b := by
        have := (List.nodup_cons.1 hnd).1; simp at this; exact this.1
      have hl1 : (h.lobj l).length ≠ 1 := by rw [hl]; simp
      have hnx : (h.node n).next = some b := by simpa using hlk.1
      have hbx := hlk.2.1
      obtain ⟨h', he, hN, hL, e1⟩ : ∃ h', Extra.removeNode .ll l none n h = (.ok (), h') ∧
          h'.node = upd h.node n { h.node n with data := some z, next := (h.node b).next } ∧
          h'.lobj = upd h.lobj l { h.lobj l with length := (h.lobj l).length - 1 } ∧
          h'.nNodes = h.nNodes := by
        refine ⟨⟨_, _, _, h.nLists⟩, ?_, rfl, rfl, rfl⟩
        simp [Extra.removeNode, removeNodeLL, run_bind, Heap.setNode, Heap.setList, hl1, hhd, hnx,
          setNext, setData, upd_upd, upd_ne _ _ hnb.symm, d3.1, hz]
      have hno : n ∉ bs := by
        have := (List.nodup_cons.1 hnd).1; simp at this; exact this.2
      have ho : ∀ a ∈ bs, h'.node a = h.node a := fun a ha => by
        rw [hN, upd_ne _ _ (by rintro rfl; exact hno ha)]
      have hln : leftNodes .ll [] n (b :: bs) = n :: bs := by simp [leftNodes]
      refine ⟨h', he, ?_⟩
      rw [hln]
      refine ⟨by simp [hL, hl], fun _ => by simp [hL, hhd],
        List.nodup_cons.2 ⟨hno, (List.nodup_cons.1 (List.nodup_cons.1 hnd).2).2⟩, ⟨?_, ?_⟩, ?_, hnorm, ?_⟩
      · simp only [hN, upd_same]; exact hbx
      · exact Lnk.congr (h := h) (fun a ha => by rw [ho a ha]) hlk.2.2
      · simp only [List.map_cons, hN, upd_same, ← d3.2]
        congr 1
        exact List.map_congr_left (fun a ha => by rw [← hN, ho a ha])
      · intro a ha; rw [e1]; apply r.src.bound; simp at ha ⊢; rcases ha with ha | ha <;> simp [ha]
  · simp only [List.concat_eq_append, List.getLast?_append, List.getLast?_singleton,
      Option.some_or] at *
    have hln : leftNodes .ll (as' ++ [p]) n bs = as' ++ [p] ++ bs := by
      unfold leftNodes; split <;> simp_all
    obtain ⟨h', he, hN, hL, e1⟩ : ∃ h', Extra.removeNode .ll l (some p) n h = (.ok (), h') ∧
        h'.node = upd h.node p { h.node p with next := (h.node n).next } ∧
        h'.lobj = upd h.lobj l { h.lobj l with length := (h.lobj l).length - 1 } ∧
        h'.nNodes = h.nNodes := by
      refine ⟨⟨_, _, _, h.nLists⟩, ?_, rfl, rfl, rfl⟩
      simp [Extra.removeNode, removeNodeLL, run_bind, Heap.setNode, Heap.setList, setNext]
    rw [List.append_assoc, Lnk_append] at hlk
    obtain ⟨l1, l2, l3, l4⟩ := hlk
    have hnd' : (as' ++ p :: n :: bs).Nodup := by simpa using hnd
    have hpa : p ∉ as' ∧ p ∉ bs := by
      have := (List.perm_middle.nodup_iff.1 hnd')
      rw [List.nodup_cons] at this
      have := this.1
      simp only [List.mem_append, List.mem_cons, not_or] at this
      exact ⟨this.1, this.2.2⟩
    have hdd : ∀ a, (h'.node a).data = (h.node a).data := fun a => by
      by_cases e : a = p <;> simp [hN, upd, e]
    refine ⟨h', he, ?_⟩
    rw [hln]
    refine ⟨by simp [hL, hl], ?_, ?_, ?_, ?_, hnorm, ?_⟩
    · intro _; simp only [hL, upd_same]; rw [r.head (by simp)]; cases as' <;> simp
    · rw [List.perm_middle.nodup_iff, List.nodup_cons] at hnd; exact hnd.2
    · rw [List.append_assoc, Lnk_append]
      refine ⟨Lnk.congr (h := h) ?_ l1, ?_, Lnk.congr (h := h) ?_ l4⟩
      · intro a ha; rw [hN, upd_ne _ _ (by rintro rfl; exact hpa.1 ha)]
      · simp only [hN, upd_same]; exact l3
      · intro a ha; rw [hN, upd_ne _ _ (by rintro rfl; exact hpa.2 ha)]
    · rw [List.map_append, List.map_append (f := some), ← d1, ← d3]
      simp only [hdd]
    · intro a ha; rw [e1]; apply r.src.bound; simp at ha ⊢; rcases ha with ha | ha | ha <;> simp [ha]

theorem RingRep.removeIdx (r : RingRep h l ns xs e) {i : Nat} (hi : i < xs.length) :
    ∃ h' ns', Extra.removeIdx .ll l i h = (.ok (), h') ∧ RingRep h' l ns' (xs.eraseIdx i) e := by
  obtain ⟨as, bs, rfl, ha⟩ := split_at_len ns (i := i) (by rw [r.length_eq]; omega)
  obtain ⟨ys, zs, rfl, hy⟩ := split_at_len xs (i := i) (by omega)
  have hlen := r.length_eq
  simp only [List.length_append] at hlen hi
  obtain ⟨b, bs, rfl⟩ := List.exists_cons_of_ne_nil (l := bs) (by rintro rfl; simp at hlen; omega)
  obtain ⟨z, zs, rfl⟩ := List.exists_cons_of_ne_nil (l := zs) (by rintro rfl; simp at hi; omega)
  obtain ⟨c, e1, hc⟩ := r.getNode
  have hc := hc (by simp)
  simp only [List.head?_cons] at hc
  subst hc
  obtain ⟨h', e2, r2⟩ := r.removeNode (ha.trans hy.symm)
  rw [ha] at e1
  refine ⟨h', leftNodes .ll as b bs, ?_, ?_⟩
  · rw [Extra.removeIdx, run_bind_ok e1]
    exact e2
  · have : (ys ++ z :: zs).eraseIdx i = ys ++ zs := by
      rw [← hy, List.eraseIdx_append_of_length_le (Nat.le_refl _)]; simp
    rw [this]; exact r2

theorem removeValueLoop_ring (v : V) (all : Bool) :
    ∀ (bs as : List Addr) {h : Heap V X} {ys zs : List V} (curr : Option Addr) (found : Bool),
    RingRep h l (as ++ bs) (ys ++ zs) e → as.length = ys.length → (bs ≠ [] → curr = bs.head?) →
    ∃ h' ns', removeValueLoop .ll l v all bs.length as.getLast? curr found h = (.ok (), h') ∧
      RingRep h' l ns' (ys ++ if all = true then zs.filter (fun z => decide (z ≠ v))
        else if found = true then zs else zs.erase v) e := by
  intro bs
  induction hn : bs.length generalizing bs with
  | zero =>
    intro as h ys zs curr found r hlen _
    have hb : bs = [] := List.eq_nil_of_length_eq_zero hn
    subst hb
    have hz : zs = [] := by
      have := r.length_eq; simp at this
      exact List.eq_nil_of_length_eq_zero (by omega)
    subst hz
    exact ⟨h, as ++ [], by simp [removeValueLoop], by simpa using r⟩
  | succ n ih =>
    intro as h ys zs curr found r hlen hcurr
    obtain ⟨b, bs, rfl⟩ := List.exists_cons_of_ne_nil (l := bs) (by rintro rfl; simp at hn)
    obtain ⟨z, zs, rfl⟩ := List.exists_cons_of_ne_nil (l := zs) (by
      rintro rfl; have := r.length_eq; simp at this; omega)
    have hcurr := hcurr (by simp)
    simp only [List.head?_cons] at hcurr
    subst hcurr
    simp only [List.length_cons, Nat.add_right_cancel_iff] at hn
    by_cases hstop : all = false ∧ found = true
    · refine ⟨h, as ++ b :: bs, by simp [removeValueLoop, hstop], ?_⟩
      simpa [hstop] using r
    · have hd : (h.node b).data = some z := (data_remove hlen r.src.data).2.1
      by_cases hz : z = v
      · subst hz
        obtain ⟨h1, e1, r1⟩ := r.removeNode hlen
        have hsplit : leftNodes .ll as b bs = as ++ (leftNodes .ll as b bs).drop as.length := by
          conv => lhs; rw [← List.take_append_drop as.length (leftNodes .ll as b bs), leftNodes_take]
        generalize hbs : (leftNodes .ll as b bs).drop as.length = bs' at hsplit
        rw [hsplit] at r1
        have hlen' : bs'.length = n := by
          have h1 := r1.length_eq; have h2 := r.length_eq
          simp at h1 h2; omega
        obtain ⟨c, hc, hc'⟩ : ∃ c, nextAfter l as.getLast? h1 = (.ok c, h1) ∧
            (bs' ≠ [] → c = bs'.head?) := by
          cases hl : as.getLast? with
          | none =>
            have : as = [] := by simpa using hl
            subst this
            exact ⟨_, rfl, fun hne => r1.head (by simpa using hne)⟩
          | some p => exact ⟨_, rfl, fun hne => r1.next_of_last hne hl⟩
        obtain ⟨h2, ns2, e2, r2⟩ := ih bs' hlen' as c true r1 hlen hc'
        refine ⟨h2, ns2, ?_, ?_⟩
        · simp only [removeValueLoop, hstop, if_false, run_bind, run_getData, hd, if_true,
            run_deref_some, e1, hc, e2]
        · cases all <;> simp_all
      · have e0 : as ++ b :: bs = (as ++ [b]) ++ bs := by simp
        have e' : ys ++ z :: zs = (ys ++ [z]) ++ zs := by simp
        rw [e0, e'] at r
        obtain ⟨h2, ns2, e2, r2⟩ := ih bs hn (as ++ [b]) ((h.node b).next) found r
          (by simp [hlen]) (fun hne => r.next_of_last hne (by simp))
        refine ⟨h2, ns2, ?_, ?_⟩
        · simp only [removeValueLoop, hstop, if_false, run_bind, run_getData, hd,
            Option.some.injEq, hz, run_getNext]
          simpa using e2
        · cases all
          · cases found
            · simpa [List.erase_cons, hz] using r2
            · exact absurd ⟨rfl, rfl⟩ hstop
          · simpa [hz] using r2

theorem RingRep.remove (r : RingRep h l ns xs e) (v : V) (all : Bool) :
    ∃ h' ns', Extra.remove .ll l (.val v) (some all) h = (.ok (), h') ∧
      RingRep h' l ns'
        (if all = true then xs.filter (fun z => decide (z ≠ v)) else xs.erase v) e := by
  obtain ⟨h', ns', e', r'⟩ := removeValueLoop_ring v all ns [] (ys := []) (zs := xs)
    (h.lobj l).head false (by simpa using r) rfl r.head
  refine ⟨h', ns', ?_, by simpa using r'⟩
  simp only [Extra.remove, validateItem, run_bind, run_lift_ok, run_getList, r.len]
  exact e'

theorem RingRep.replaceValue (r : RingRep h l ns xs e) {i : Nat} (hi : i < xs.length) (v : V) :
    ∃ h', Extra.replaceValue .ll l i v h = (.ok (), h') ∧
      RingRep h' l ns (xs.set i (PyData.norm v)) e := by
  obtain ⟨as, bs, rfl, ha⟩ := split_at_len ns (i := i) (by rw [r.length_eq]; omega)
  obtain ⟨ys, zs, rfl, hy⟩ := split_at_len xs (i := i) (by omega)
  have hlen := r.length_eq
  simp only [List.length_append] at hlen hi
  obtain ⟨b, bs, rfl⟩ := List.exists_cons_of_ne_nil (l := bs) (by rintro rfl; simp at hlen; omega)
  obtain ⟨z, zs, rfl⟩ := List.exists_cons_of_ne_nil (l := zs) (by rintro rfl; simp at hi; omega)
  obtain ⟨c, e1, hc⟩ := r.getNode
  have hc := hc (by simp)
  simp only [List.head?_cons] at hc
  subst hc
  rw [ha] at e1
  obtain ⟨h', he, hN, hL, n1⟩ : ∃ h', Extra.replaceValue .ll l i v h = (.ok (), h') ∧
      h'.node = upd h.node b { h.node b with data := some (PyData.norm v) } ∧
      h'.lobj = h.lobj ∧ h'.nNodes = h.nNodes := by
    refine ⟨⟨upd h.node b { h.node b with data := some (PyData.norm v) }, h.lobj, h.nNodes,
      h.nLists⟩, ?_, rfl, rfl, rfl⟩
    rw [Extra.replaceValue, run_bind_ok e1]
    simp [run_bind, setData, Heap.setNode]
  have hnx : ∀ a, (h'.node a).next = (h.node a).next :=
    fun a => by by_cases e : a = b <;> simp [hN, upd, e]
  have hnd := r.nodup
  rw [List.perm_middle.nodup_iff, List.nodup_cons] at hnd
  simp only [List.mem_append, not_or] at hnd
  obtain ⟨d1, d2, d3⟩ := data_remove (ha.trans hy.symm) r.src.data
  have hset : (ys ++ z :: zs).set i (PyData.norm v) = ys ++ PyData.norm v :: zs := by
    rw [← hy]; simp
  refine ⟨h', he, ?_⟩
  rw [hset]
  refine ⟨by rw [hL]; exact r.len, by rw [hL]; exact r.head, r.nodup,
    r.src.links.congr (fun a _ => hnx a), ?_, ?_, by rw [n1]; exact r.src.bound⟩
  · rw [List.map_append, List.map_append (f := some), List.map_cons, List.map_cons, ← d1, ← d3]
    congr 1
    · exact List.map_congr_left (fun a ha => by
        rw [hN, upd_ne _ _ (by rintro rfl; exact hnd.1.1 ha)])
    · congr 1
      · simp [hN]
      · exact List.map_congr_left (fun a ha => by
          rw [hN, upd_ne _ _ (by rintro rfl; exact hnd.1.2 ha)])
  · intro y hy
    simp only [List.mem_append, List.mem_cons] at hy
    rcases hy with hy | rfl | hy
    · exact r.src.normed y (by simp [hy])
    · exact PyData.norm_norm v
    · exact r.src.normed y (by simp [hy])

/-! ## Reading -/

theorem RingRep.validateIndex (r : RingRep h l ns xs e) (i : Idx) :
    Extra.validateIndex .ll l i false false h =
      (match placeOf xs.length i with
        | .error e => (.error e, h)
        | .ok _ => (.ok (), h)) := by
  cases i with
  | slice s t u => rfl
  | other => rfl
  | int i =>
    simp only [Extra.validateIndex, placeOf, and_true]
    by_cases h1 : i ≤ -1
    · have : ¬ (0 ≤ i ∧ i ≤ (xs.length : Int)) := by omega
      simp [h1, this]
    · by_cases h2 : i ≤ (xs.length : Int)
      · have h3 : 0 ≤ i ∧ i ≤ (xs.length : Int) := by omega
        have h4 : ¬ (i < -(xs.length : Int) ∨ i > (xs.length : Int)) := by omega
        simp only [h1, if_false, run_bind, run_getList, r.lenobj, h4, h3, if_true, and_self, run_pure]
      · have h3 : ¬ (0 ≤ i ∧ i ≤ (xs.length : Int)) := by omega
        have h4 : (i < -(xs.length : Int) ∨ i > (xs.length : Int)) := by omega
        simp only [h1, if_false, run_bind, run_getList, r.lenobj, h4, if_true, h3, run_throw]

theorem RingRep.nodeData (r : RingRep h l ns xs e) {i : Nat} (hi : i < xs.length) :
    ∃ p a, Extra.getNode .ll l i h = (.ok (p, some a), h) ∧ (h.node a).data = some xs[i] := by
  obtain ⟨as, bs, rfl, ha⟩ := split_at_len ns (i := i) (by rw [r.length_eq]; omega)
  obtain ⟨ys, zs, rfl, hy⟩ := split_at_len xs (i := i) (by omega)
  have hlen := r.length_eq
  simp only [List.length_append] at hlen hi
  obtain ⟨b, bs, rfl⟩ := List.exists_cons_of_ne_nil (l := bs) (by rintro rfl; simp at hlen; omega)
  obtain ⟨z, zs, rfl⟩ := List.exists_cons_of_ne_nil (l := zs) (by rintro rfl; simp at hi; omega)
  obtain ⟨c, e1, hc⟩ := r.getNode
  have hc := hc (by simp)
  simp only [List.head?_cons] at hc
  subst hc
  refine ⟨_, b, by rw [ha] at e1; exact e1, ?_⟩
  rw [(data_remove (ha.trans hy.symm) r.src.data).2.1]
  simp [hy]

end Extra
