import Verif.Lists.Mixed
import Verif.Lists.Ops

/-!
# Lemmas for `LinkedList()`s that hold `DoublyNode()`s
-/

set_option linter.unusedSectionVars false

namespace Extra
variable {V : Type} [PyData V]

/-! ## Specification: a list of items, each with the class of the node that holds it -/

/-- the first item goes: the *node* of the first item stays and takes over the second item -/
def frontGone : List (V × Bool) → List (V × Bool)
  | [] => []
  | [_] => []
  | (_, c) :: (y, _) :: t => (y, c) :: t

/-- the item at place `i` goes -/
def goneAt (i : Nat) (ms : List (V × Bool)) : List (V × Bool) :=
  if i = 0 then frontGone ms else ms.eraseIdx i

/-- the first item equal to `v` goes -/
def goneFirst (v : V) : List (V × Bool) → List (V × Bool)
  | [] => []
  | z :: t => if z.1 = v then frontGone (z :: t) else z :: t.eraseP (fun z => decide (z.1 = v))

/-- all items equal to `v` go -/
def goneAll (v : V) (ms : List (V × Bool)) : List (V × Bool) :=
  match ms.dropWhile (fun z => decide (z.1 = v)) with
  | [] => []
  | (y, _) :: t => (y, (ms.head?.map (·.2)).getD false) :: t.filter (fun z => decide (z.1 ≠ v))

/-- the node before place `i` is a `DoublyNode()` -/
def refuses (ms : List (V × Bool)) (i : Nat) : Bool :=
  decide (0 < i) && ((ms[i - 1]?).map (·.2)).getD false

/-- a value is put in at place `i` -/
def putAt (i : Nat) (v : V) (ms : List (V × Bool)) : Except Err Unit × List (V × Bool) :=
  if refuses ms i then (.error .typeError, ms)
  else (.ok (), ms.insertIdx i (PyData.norm v, false))

/-- the place an index stands for, in a list of length `n` -/
def placeOf (n : Nat) : Idx → Except Err Nat
  | .int i => if 0 ≤ i ∧ i ≤ n then .ok i.toNat else .error .indexError
  | .slice _ _ _ => .error .indexError
  | .other => .error .typeError

/-- what a call answers and leaves, on lists of items marked with the class of their nodes -/
def mixCall : XOp V → List (V × Bool) → Except Err Unit × List (V × Bool)
  | .addFront it, ms =>
    match validateItem it with
    | .error e => (.error e, ms)
    | .ok v => putAt 0 v ms
  | .addEnd it, ms =>
    match validateItem it with
    | .error e => (.error e, ms)
    | .ok v => putAt ms.length v ms
  | .insert i it, ms =>
    match placeOf ms.length i, validateItem it with
    | .error e, _ => (.error e, ms)
    | _, .error e => (.error e, ms)
    | .ok i, .ok v => putAt i v ms
  | .setItem i it, ms =>
    match placeOf ms.length i with
    | .error e => (.error e, ms)
    | .ok i =>
      if i = ms.length then (.error .indexError, ms)
      else match validateItem it with
        | .error e => (.error e, ms)
        | .ok v => (.ok (), ms.modify i (fun z => (PyData.norm v, z.2)))
  | .delItem i, ms =>
    match placeOf ms.length i with
    | .error e => (.error e, ms)
    | .ok i => if i = ms.length then (.error .indexError, ms) else (.ok (), goneAt i ms)
  | .removeFront, ms => (.ok (), frontGone ms)
  | .removeEnd, ms => (.ok (), goneAt (ms.length - 1) ms)
  | .remove it all, ms =>
    match all, validateItem it with
    | none, _ => (.error .typeError, ms)
    | some _, .error e => (.error e, ms)
    | some true, .ok v => (.ok (), goneAll v ms)
    | some false, .ok v => (.ok (), goneFirst v ms)
  | .clear, _ => (.ok (), [])

/-- a run of calls -/
def mixCalls : List (XOp V) → List (V × Bool) → List (Except Err Unit) × List (V × Bool)
  | [], ms => ([], ms)
  | op :: ops, ms =>
    let (r, ms1) := mixCall op ms
    let (rs, ms2) := mixCalls ops ms1
    (r :: rs, ms2)

/-- the `LinkedList()` at `l` consists of the nodes `ns`, holding the items `ms` in nodes of the
classes given by the marks, and no `Node()` follows a `DoublyNode()` -/
structure MixRep (h : Heap V Bool) (l : Addr) (ns : List Addr) (ms : List (V × Bool)) : Prop where
  rep : Rep .ll h l ns (ms.map (·.1))
  cls : ns.map (fun a => (h.node a).ext) = ms.map (·.2)
  mono : ms.Pairwise (fun x y => x.2 = true → y.2 = true)

/-! ## Heaps that agree but for `_prev` -/

/-- the heaps agree on everything except the `_prev` pointers -/
structure Blind (h h' : Heap V Bool) : Prop where
  lobj : h'.lobj = h.lobj
  nNodes : h'.nNodes = h.nNodes
  nLists : h'.nLists = h.nLists
  data : ∀ a, (h'.node a).data = (h.node a).data
  next : ∀ a, (h'.node a).next = (h.node a).next
  ext : ∀ a, (h'.node a).ext = (h.node a).ext

theorem Blind.refl (h : Heap V Bool) : Blind h h :=
  ⟨rfl, rfl, rfl, fun _ => rfl, fun _ => rfl, fun _ => rfl⟩

theorem Blind.setData {h h' : Heap V Bool} (b : Blind h h') (a : Addr) (d : Option V) :
    Blind (h.setNode a { h.node a with data := d }) (h'.setNode a { h'.node a with data := d }) := by
  refine ⟨b.lobj, b.nNodes, b.nLists, fun x => ?_, fun x => ?_, fun x => ?_⟩ <;>
    by_cases e : x = a <;> simp [upd, e, b.data, b.next, b.ext]

theorem Blind.setList {h h' : Heap V Bool} (b : Blind h h') (l : Addr) (o : LObj) :
    Blind (h.setList l o) (h'.setList l o) :=
  ⟨by simp [b.lobj], b.nNodes, b.nLists, b.data, b.next, b.ext⟩

theorem Rep.blind {h h' : Heap V Bool} {l : Addr} {ns : List Addr} {xs : List V}
    (r : Rep .ll h l ns xs) (b : Blind h h') : Rep .ll h' l ns xs := by
  refine ⟨by rw [b.lobj]; exact r.len, ?_, r.normed, r.nodup, by rw [b.nNodes]; exact r.bound,
    by rw [b.nLists]; exact r.lbound, by rw [b.lobj]; exact r.head,
    by rw [b.lobj, b.nNodes]; exact r.hbound, Lnk.congr (fun a _ => b.next a) r.links,
    (by intro e; cases e), (by intro e; cases e)⟩
  rw [← r.data]
  exact List.map_congr_left (fun a _ => b.data a)

theorem setNextX_plain {h : Heap V Bool} {a : Addr} (ha : (h.node a).ext = false) (b : Option Addr) :
    setNextX a b h = setNextRaw a b h := by
  simp [setNextX, isDoubly, run_bind, ha]

theorem setNextX_ok {h : Heap V Bool} {a : Addr} {b : Option Addr}
    (hab : (h.node a).ext = true → ∀ c, b = some c → (h.node c).ext = true) :
    ∃ h', setNextX a b h = (.ok (), h') ∧ Blind (h.setNode a { h.node a with next := b }) h' := by
  cases ha : (h.node a).ext with
  | false => exact ⟨_, by rw [setNextX_plain ha, run_setNextRaw], Blind.refl _⟩
  | true =>
    cases b with
    | none => exact ⟨_, by simp [setNextX, isDoubly, run_bind, ha], Blind.refl _⟩
    | some c =>
      have hc := hab ha c rfl
      let h1 := h.setNode a { h.node a with next := some c }
      refine ⟨h1.setNode c { h1.node c with prev := some a },
        by simp [setNextX, isDoubly, run_bind, ha, hc, h1], rfl, rfl, rfl, fun x => ?_,
        fun x => ?_, fun x => ?_⟩ <;>
        by_cases e : x = c <;> simp [upd, e, h1]

/-! ## Insertion -/

theorem xInsertNode_plain {h : Heap V Bool} {l n : Addr} {prev : Option Addr}
    (hn : (h.node n).ext = false) (hp : ∀ p, prev = some p → (h.node p).ext = false) :
    xInsertNode l prev n h = insertNodeLL l prev n h := by
  simp only [xInsertNode, insertNodeLL, setNext]
  cases prev with
  | none => by_cases h0 : (h.lobj l).length = 0 <;> simp [run_bind, h0, setNextX_plain hn]
  | some p =>
    by_cases h0 : (h.lobj l).length = 0
    · simp [run_bind, h0, setNextX_plain hn]
    · have : ((h.setNode n { h.node n with next := (h.node p).next }).node p).ext = false := by
        by_cases e : p = n <;> simp [upd, e, hn, hp p rfl]
      simp [run_bind, h0, setNextX_plain hn, setNextX_plain this]

theorem xInsertNode_refused {h : Heap V Bool} {l n p : Addr}
    (hl : (h.lobj l).length ≠ 0) (hn : (h.node n).ext = false) (hp : (h.node p).ext = true) :
    xInsertNode l (some p) n h =
      (.error .typeError, h.setNode n { h.node n with next := (h.node p).next }) := by
  have hne : p ≠ n := by rintro rfl; rw [hn] at hp; cases hp
  simp [xInsertNode, run_bind, hl, setNextX, isDoubly, upd, hne, hp, hn]

theorem marks_split {as bs : List Addr} {ys zs : List (V × Bool)} {f : Addr → Bool}
    (h : (as ++ bs).map f = (ys ++ zs).map (·.2)) (hlen : as.length = ys.length) :
    as.map f = ys.map (·.2) ∧ bs.map f = zs.map (·.2) := by
  simp only [List.map_append] at h
  exact List.append_inj h (by simpa using hlen)

theorem refuses_append (ys zs : List (V × Bool)) :
    refuses (ys ++ zs) ys.length = (ys.getLast?.map (·.2)).getD false := by
  rcases List.eq_nil_or_concat ys with rfl | ⟨ys', y, rfl⟩
  · simp [refuses]
  · simp [refuses]

theorem xInsertAt_mix {h : Heap V Bool} {l : Addr} {ns : List Addr} {ms : List (V × Bool)}
    (r : MixRep h l ns ms) {i : Nat} (hi : i ≤ ms.length) (v : V) :
    ∃ h' ns', xInsertAt l i v h = ((putAt i v ms).1, h') ∧ MixRep h' l ns' (putAt i v ms).2 := by
  have hlen := r.rep.length_eq
  simp only [List.length_map] at hlen
  obtain ⟨as, bs, rfl, ha⟩ := split_at_len ns (i := i) (by omega)
  obtain ⟨ys, zs, rfl, hy⟩ := split_at_len ms hi
  obtain ⟨c, e1, _⟩ := getNode_spec r.rep
  rw [ha] at e1
  have hc := r.cls
  obtain ⟨c1, c2⟩ := marks_split hc (ha.trans hy.symm)
  obtain ⟨h1, e2, n1, o1, L1, b1, cc1⟩ := newNode_run false v h
  have f1 : Frame h h1 (fun _ => False) (fun _ => False) :=
    ⟨fun a ha _ => o1 a (Nat.ne_of_lt ha), fun _ _ _ => by rw [L1], by omega, by omega⟩
  have r1 := r.rep.frame f1 (by simp) (by simp)
  have hn : h.nNodes ∉ as ++ bs := fun e => Nat.lt_irrefl _ (r.rep.bound _ e)
  have hx : ∀ a ∈ as ++ bs, (h1.node a).ext = (h.node a).ext := fun a hm => by
    rw [o1 a (fun e => hn (e ▸ hm))]
  have hmark : (as.getLast?.map (fun a => (h.node a).ext)) = ys.getLast?.map (·.2) := by
    rw [← List.getLast?_map, c1, List.getLast?_map]
  have hr : refuses (ys ++ zs) i = (as.getLast?.map (fun a => (h.node a).ext)).getD false := by
    rw [← hy, refuses_append, hmark]
  cases hrf : refuses (ys ++ zs) i with
  | true =>
    rw [hr] at hrf
    cases hl : as.getLast? with
    | none => rw [hl] at hrf; simp at hrf
    | some p =>
      rw [hl] at hrf
      simp only [Option.map_some, Option.getD_some] at hrf
      have hpm : p ∈ as ++ bs := List.mem_append_left _ (List.mem_of_getLast? hl)
      have h0 : (h1.lobj l).length ≠ 0 := by
        rw [L1, r.rep.len]; intro e; rw [List.length_eq_zero_iff.1 e] at hpm; cases hpm
      have e3 := xInsertNode_refused (l := l) (n := h.nNodes) (p := p) h0 (by rw [n1])
        (by rw [hx p hpm]; exact hrf)
      have hput : putAt i v (ys ++ zs) = (.error .typeError, ys ++ zs) := by
        rw [putAt, hr, hl]; simp [hrf]
      rw [hput]
      refine ⟨h1.setNode h.nNodes { h1.node h.nNodes with next := (h1.node p).next }, as ++ bs, ?_,
        ?_, ?_, r.mono⟩
      · rw [hl] at e1
        rw [xInsertAt, run_bind_ok e1]
        simp only [xInsertValue, run_bind_ok e2, run_bind, e3]
      · refine r1.frame (S := (· = h.nNodes)) (L := fun _ => False)
          ⟨fun a _ hs => by simp [upd, hs], fun _ _ _ => rfl, Nat.le_refl _, Nat.le_refl _⟩
          (fun a hm e => hn (e ▸ hm)) (by simp)
      · rw [← hc]
        refine List.map_congr_left (fun a hm => ?_)
        have : a ≠ h.nNodes := fun e => hn (e ▸ hm)
        simp [upd, this, hx a hm]
  | false =>
    have hput : putAt i v (ys ++ zs) = (.ok (), ys ++ (PyData.norm v, false) :: zs) := by
      rw [putAt, hrf, ← hy, insertIdx_append]; rfl
    rw [hr] at hrf
    have hp : ∀ p, as.getLast? = some p → (h1.node p).ext = false := fun p hl => by
      rw [hx p (List.mem_append_left _ (List.mem_of_getLast? hl))]
      rw [hl] at hrf; simpa using hrf
    simp only [List.map_append] at r1
    obtain ⟨h2, e3, r3, f3, s3, _, _⟩ := insertNodeLL_spec (n := h.nNodes) (v := PyData.norm v) r1
      (by simpa using ha.trans hy.symm) hn (by omega) (by rw [n1]) (PyData.norm_norm v)
      (prev := as.getLast?) (Or.inl rfl)
    have hs : ∀ a, (h2.node a).ext = (h1.node a).ext := fun a => (s3 a).2
    rw [hput]
    refine ⟨h2, as ++ h.nNodes :: bs, ?_, by simpa using r3, ?_, ?_⟩
    · rw [xInsertAt, run_bind_ok e1]
      simp only [xInsertValue, run_bind_ok e2, run_bind, xInsertNode_plain (n := h.nNodes) (by rw [n1]) hp, e3, run_pure]
    · simp only [List.map_append, List.map_cons, hs, n1]
      rw [← c1, ← c2]
      congr 1
      · exact List.map_congr_left (fun a hm => hx a (List.mem_append_left _ hm))
      · congr 1
        exact List.map_congr_left (fun a hm => hx a (List.mem_append_right _ hm))
    · have hm := r.mono
      rw [List.pairwise_append] at hm ⊢
      refine ⟨hm.1, List.pairwise_cons.2 ⟨by simp, hm.2.1⟩, fun x hxm y hym => ?_⟩
      rcases List.mem_cons.1 hym with rfl | hym
      · -- the last item of `ys` is in a `Node()`, so all of them are
        intro hx2
        exfalso
        rcases List.eq_nil_or_concat ys with rfl | ⟨ys', q, rfl⟩
        · cases hxm
        · rw [hmark] at hrf
          simp at hrf
          have : q.2 = true := by
            simp only [List.concat_eq_append, List.mem_append, List.mem_singleton] at hxm
            rcases hxm with h5 | rfl
            · have := hm.1
              rw [List.concat_eq_append, List.pairwise_append] at this
              exact this.2.2 x h5 q (by simp) hx2
            · exact hx2
          rw [hrf] at this; cases this
      · exact hm.2.2 x hxm y hym

/-! ## Removal -/

/-- what is left of `ys ++ x :: zs` when the item `x` goes -/
def goneMid (ys : List (V × Bool)) (x : V × Bool) (zs : List (V × Bool)) : List (V × Bool) :=
  match ys with
  | [] => frontGone (x :: zs)
  | _ :: _ => ys ++ zs

theorem goneAt_append (ys : List (V × Bool)) (x : V × Bool) (zs : List (V × Bool)) :
    goneAt ys.length (ys ++ x :: zs) = goneMid ys x zs := by
  cases ys with
  | nil => simp [goneAt, goneMid]
  | cons y ys => simp [goneAt, goneMid, List.eraseIdx_append_of_length_le]

theorem goneMid_fst (ys : List (V × Bool)) (x : V × Bool) (zs : List (V × Bool)) :
    (goneMid ys x zs).map (·.1) = ys.map (·.1) ++ zs.map (·.1) := by
  cases ys with
  | nil => rcases zs with _ | ⟨⟨z, d⟩, zs⟩ <;> simp [goneMid, frontGone]
  | cons y ys => simp [goneMid]

theorem goneMid_mono {ys : List (V × Bool)} {x : V × Bool} {zs : List (V × Bool)}
    (hm : (ys ++ x :: zs).Pairwise (fun x y => x.2 = true → y.2 = true)) :
    (goneMid ys x zs).Pairwise (fun x y => x.2 = true → y.2 = true) := by
  cases ys with
  | nil =>
    rcases zs with _ | ⟨⟨z, d⟩, zs⟩
    · simp [goneMid, frontGone]
    · simp only [List.nil_append, List.pairwise_cons] at hm
      simp only [goneMid, frontGone, List.pairwise_cons]
      exact ⟨fun y hy e => hm.1 y (by simp [hy]) e, hm.2.2⟩
  | cons y ys =>
    exact hm.sublist (List.Sublist.append_left (List.sublist_cons_self _ _) _)

theorem xRemoveNode_mix {h : Heap V Bool} {l : Addr} {as bs : List Addr}
    {ys zs : List (V × Bool)} {n : Addr} {x : V × Bool}
    (r : MixRep h l (as ++ n :: bs) (ys ++ x :: zs)) (hlen : as.length = ys.length) :
    ∃ h', xRemoveNode l as.getLast? n h = (.ok (), h') ∧
      MixRep h' l (leftNodes .ll as n bs) (goneMid ys x zs) := by
  have hr := r.rep
  simp only [List.map_append, List.map_cons] at hr
  obtain ⟨h0, e0, r0, _, _, _, x0⟩ := removeNode_spec (k := .ll) hr (by simpa using hlen)
  obtain ⟨c1, c2⟩ := marks_split r.cls hlen
  simp only [List.map_cons, List.cons.injEq] at c2
  obtain ⟨c2, c3⟩ := c2
  obtain ⟨d1, d2, d3⟩ := data_remove (by simpa using hlen) hr.data
  -- the run, up to `_prev`
  have key : ∃ h', xRemoveNode l as.getLast? n h = (.ok (), h') ∧ Blind h0 h' := by
    have hlk := hr.links
    simp only [endOf] at hlk
    rcases List.eq_nil_or_concat as with rfl | ⟨as', p, rfl⟩
    · have hhd := hr.head (by simp)
      simp only [List.nil_append, List.head?_cons] at hhd
      cases bs with
      | nil =>
        have hl : (h.lobj l).length = 1 := by rw [hr.len]; simp
        refine ⟨h0, ?_, Blind.refl _⟩
        rw [← e0]
        simp [xRemoveNode, removeNode, removeNodeLL, run_bind, hhd, hl]
      | cons b bs =>
        obtain ⟨y, zs', rfl⟩ : ∃ y zs', zs = y :: zs' := by
          cases zs with
          | nil => simp at d3
          | cons y zs' => exact ⟨y, zs', rfl⟩
        have hys : ys = [] := List.eq_nil_of_length_eq_zero (by simpa using hlen.symm)
        subst hys
        simp only [List.map_cons, List.cons.injEq] at d3 c3
        have hl : (h.lobj l).length ≠ 1 := by rw [hr.len]; simp
        have hnx : (h.node n).next = some b := by simpa using hlk.1
        have hbx : (h.node b).next = bs.head? := by simpa using hlk.2.1
        have hok : (h.node n).ext = true → ∀ c, (h.node b).next = some c → (h.node c).ext = true := by
          intro hn c hc
          rw [hbx] at hc
          cases bs with
          | nil => cases hc
          | cons c' bs' =>
            cases hc
            cases zs' with
            | nil => simp at c3
            | cons w zs'' =>
              simp only [List.map_cons, List.cons.injEq] at c3
              rw [c3.2.1]
              have := r.mono
              simp only [List.nil_append, List.pairwise_cons] at this
              exact this.1 w (by simp) (by rw [← c2]; exact hn)
        have hnb : b ≠ n := by
          have := (List.nodup_cons.1 hr.nodup).1; simp at this
          exact fun e => this.1 e.symm
        obtain ⟨h1, e1, b1⟩ := setNextX_ok hok
        have hdb : (h1.node b).data = some y.1 := by
          rw [b1.data]; simp [upd, hnb, d3.1]
        have b2 := (b1.setData n (some (PyData.norm y.1))).setList l
          { h.lobj l with length := (h.lobj l).length - 1 }
        have hd0 : ((h.setNode n { h.node n with next := (h.node b).next }).node b).data
            = some y.1 := by simp [upd, hnb, d3.1]
        have hL1 : h1.lobj = h.lobj := b1.lobj
        have e0' := (show removeNode .ll l none n h = (.ok (), _) by
          simp only [removeNode, removeNodeLL, run_bind, run_getList, run_getNext, hhd, hl, if_false,
            run_deref_some, hnx, setNext, run_setNextRaw, run_getData, hd0, setData, run_setDataRaw,
            run_setLength]
          rfl)
        rw [show ([] : List Addr).getLast? = none from rfl, e0'] at e0
        simp only [Prod.mk.injEq, true_and] at e0
        subst e0
        refine ⟨_, ?_, b2⟩
        simp only [xRemoveNode, run_bind, run_getList, run_getNext, List.getLast?_nil, hhd, hl,
          if_false, run_deref_some, hnx, e1, run_getData, hdb, setData, run_setDataRaw,
          run_setLength, setNode_lobj, hL1]
    · have hok : (h.node p).ext = true →
          ∀ c, (h.node n).next = some c → (h.node c).ext = true := by
        intro hp c hc
        have hnx : (h.node n).next = bs.head? := by
          rw [Lnk_append] at hlk
          simpa using hlk.2.1
        rw [hnx] at hc
        rcases List.eq_nil_or_concat ys with rfl | ⟨ys', y, rfl⟩
        · simp at hlen
        · simp only [List.concat_eq_append, List.map_append, List.map_cons, List.map_nil] at c1
          obtain ⟨_, c4⟩ := List.append_inj' c1 rfl
          simp only [List.cons.injEq, and_true] at c4
          cases bs with
          | nil => cases hc
          | cons c' bs' =>
            cases hc
            cases zs with
            | nil => simp at c3
            | cons w zs' =>
              simp only [List.map_cons, List.cons.injEq] at c3
              rw [c3.1]
              have := r.mono
              rw [List.pairwise_append] at this
              exact this.2.2 y (by simp) w (by simp) (by rw [← c4]; exact hp)
      obtain ⟨h1, e1, b1⟩ := setNextX_ok hok
      have b2 := b1.setList l { h.lobj l with length := (h.lobj l).length - 1 }
      have hL1 : h1.lobj = h.lobj := b1.lobj
      have hgl : (as'.concat p).getLast? = some p := by simp
      rw [hgl] at e0 ⊢
      have e0' := (show removeNode .ll l (some p) n h = (.ok (), _) by
        simp only [removeNode, removeNodeLL, run_bind, run_getList, run_getNext, setNext,
          run_setNextRaw, run_setLength]
        rfl)
      rw [e0'] at e0
      simp only [Prod.mk.injEq, true_and] at e0
      subst e0
      refine ⟨_, ?_, b2⟩
      simp only [xRemoveNode, run_bind, run_getList, run_getNext, e1, run_setLength, hL1]
  obtain ⟨h', e', b'⟩ := key
  refine ⟨h', e', ?_, ?_, goneMid_mono r.mono⟩
  · rw [goneMid_fst]; exact r0.blind b'
  · simp only [b'.ext, x0]
    rcases List.eq_nil_or_concat as with rfl | ⟨as', p, rfl⟩
    · have hys : ys = [] := List.eq_nil_of_length_eq_zero (by simpa using hlen.symm)
      subst hys
      rcases bs with _ | ⟨b, bs⟩ <;> rcases zs with _ | ⟨⟨z, d⟩, zs⟩ <;>
        simp_all [leftNodes, goneMid, frontGone]
    · obtain ⟨y, ys, rfl⟩ := List.exists_cons_of_ne_nil (l := ys) (by rintro rfl; simp at hlen)
      have : leftNodes .ll (as'.concat p) n bs = as'.concat p ++ bs := by
        unfold leftNodes; split <;> simp_all
      rw [this]
      simp only [goneMid, List.map_append, c1, c3]

end Extra

namespace Extra
variable {V : Type} [PyData V]

theorem xRemoveIdx_mix {h : Heap V Bool} {l : Addr} {ns : List Addr} {ms : List (V × Bool)}
    (r : MixRep h l ns ms) {i : Nat} (hi : i < ms.length) :
    ∃ h' ns', xRemoveIdx l i h = (.ok (), h') ∧ MixRep h' l ns' (goneAt i ms) := by
  have hlen := r.rep.length_eq
  simp only [List.length_map] at hlen
  obtain ⟨as, bs, rfl, ha⟩ := split_at_len ns (i := i) (by omega)
  obtain ⟨ys, zs, rfl, hy⟩ := split_at_len ms (i := i) (by omega)
  simp only [List.length_append] at hlen hi
  obtain ⟨b, bs, rfl⟩ := List.exists_cons_of_ne_nil (l := bs) (by rintro rfl; simp at hlen; omega)
  obtain ⟨z, zs, rfl⟩ := List.exists_cons_of_ne_nil (l := zs) (by rintro rfl; simp at hi; omega)
  obtain ⟨c, e1, hc⟩ := getNode_spec r.rep
  have hc := hc (by simp)
  simp only [List.head?_cons, Option.some_or] at hc
  obtain ⟨h', e2, r2⟩ := xRemoveNode_mix r (ha.trans hy.symm)
  refine ⟨h', _, ?_, by rw [← hy, goneAt_append]; exact r2⟩
  rw [ha] at e1
  rw [xRemoveIdx, run_bind_ok e1]
  subst hc
  simp only [assertSome, run_bind, run_pure]
  exact e2

theorem xRemoveValueLoop_mix {l : Addr} (v : V) (all : Bool) :
    ∀ (bs as : List Addr) {h : Heap V Bool} {ys zs : List (V × Bool)} (curr : Option Addr)
      (found : Bool),
    MixRep h l (as ++ bs) (ys ++ zs) → as.length = ys.length → (bs ≠ [] → curr = bs.head?) →
    ∃ h' ns', xRemoveValueLoop l v all bs.length as.getLast? curr found h = (.ok (), h') ∧
      MixRep h' l ns' (if all = true then
          (if ys = [] then goneAll v zs else ys ++ zs.filter (fun z => decide (z.1 ≠ v)))
        else if found = true then ys ++ zs
        else if ys = [] then goneFirst v zs else ys ++ zs.eraseP (fun z => decide (z.1 = v))) := by
  intro bs
  induction hn : bs.length generalizing bs with
  | zero =>
    intro as h ys zs curr found r hlen _
    have hb : bs = [] := List.eq_nil_of_length_eq_zero hn
    subst hb
    have hz : zs = [] := by
      have := r.rep.length_eq; simp at this
      exact List.eq_nil_of_length_eq_zero (by omega)
    subst hz
    refine ⟨h, as ++ [], by simp [xRemoveValueLoop], ?_⟩
    by_cases hy : ys = [] <;> simpa [hy, goneAll, goneFirst] using r
  | succ n ih =>
    intro as h ys zs curr found r hlen hcurr
    obtain ⟨b, bs, rfl⟩ := List.exists_cons_of_ne_nil (l := bs) (by rintro rfl; simp at hn)
    obtain ⟨z, zs, rfl⟩ := List.exists_cons_of_ne_nil (l := zs) (by
      rintro rfl; have := r.rep.length_eq; simp at this; omega)
    have hcurr := hcurr (by simp)
    simp only [List.head?_cons] at hcurr
    subst hcurr
    simp only [List.length_cons, Nat.add_right_cancel_iff] at hn
    by_cases hstop : all = false ∧ found = true
    · refine ⟨h, as ++ b :: bs, by simp [xRemoveValueLoop, hstop], ?_⟩
      simpa [hstop] using r
    · have hrr := r.rep
      simp only [List.map_append, List.map_cons] at hrr
      have hd : (h.node b).data = some z.1 := (data_remove (by simpa using hlen) hrr.data).2.1
      by_cases hz : z.1 = v
      · obtain ⟨h1, e1, r1⟩ := xRemoveNode_mix r hlen
        have hsplit : leftNodes .ll as b bs = as ++ (leftNodes .ll as b bs).drop as.length := by
          conv => lhs; rw [← List.take_append_drop as.length (leftNodes .ll as b bs), leftNodes_take]
        generalize hbs : (leftNodes .ll as b bs).drop as.length = bs' at hsplit
        rw [hsplit] at r1
        -- the items behind `ys`
        obtain ⟨zs', hg⟩ : ∃ zs', goneMid ys z zs = ys ++ zs' := by
          cases ys with
          | nil => exact ⟨_, rfl⟩
          | cons y ys => exact ⟨_, rfl⟩
        have hl0 : (goneMid ys z zs).length = ys.length + zs.length := by
          have := congrArg List.length (goneMid_fst ys z zs)
          simpa using this
        have hlen' : bs'.length = n := by
          have h1 := r1.rep.length_eq; have h2 := r.rep.length_eq
          simp [hl0] at h1 h2; omega
        rw [hg] at r1
        obtain ⟨c, hc, hc'⟩ : ∃ c, nextAfter l as.getLast? h1 = (.ok c, h1) ∧
            (bs' ≠ [] → c = bs'.head?) := by
          cases hl : as.getLast? with
          | none =>
            have : as = [] := by simpa using hl
            subst this
            exact ⟨_, rfl, fun hne => r1.rep.head (by simpa using hne)⟩
          | some p => exact ⟨_, rfl, fun hne => r1.rep.next_of_last hne hl⟩
        obtain ⟨h2, ns2, e2, r2⟩ := ih bs' hlen' as c true r1 hlen hc'
        refine ⟨h2, ns2, ?_, ?_⟩
        · simp only [xRemoveValueLoop, hstop, if_false, run_bind, run_getData, hd, hz, if_true,
            run_deref_some, e1, hc, e2]
        · cases ys with
          | nil =>
            simp only [List.nil_append, goneMid] at hg
            cases all with
            | true =>
              simp only [if_true] at r2 ⊢
              have : goneAll v (z :: zs) = goneAll v zs' := by
                rw [← hg]
                rcases zs with _ | ⟨⟨y, d⟩, t⟩
                · simp [goneAll, frontGone, hz]
                · by_cases hy : y = v
                  · subst hy
                    simp [goneAll, frontGone, hz]
                  · simp [goneAll, frontGone, hz, hy]
              rw [this]; exact r2
            | false =>
              have hf : found = false := by simpa using hstop
              simp only [hf, Bool.false_eq_true, if_false, if_true, List.nil_append] at r2 ⊢
              rw [goneFirst, if_pos hz, hg]; exact r2
          | cons y ys =>
            simp only [goneMid, List.append_cancel_left_eq] at hg
            subst hg
            cases all with
            | true => simpa [hz] using r2
            | false =>
              have hf : found = false := by simpa using hstop
              simp only [hf, Bool.false_eq_true, if_false, if_true, reduceCtorEq] at r2 ⊢
              simpa [List.eraseP_cons, hz] using r2
      · have hnx : bs ≠ [] → (h.node b).next = bs.head? := by
          intro hne
          have : as ++ b :: bs = (as ++ [b]) ++ bs := by simp
          rw [this] at hrr
          exact hrr.next_of_last hne (by simp)
        have e : as ++ b :: bs = (as ++ [b]) ++ bs := by simp
        have e' : ys ++ z :: zs = (ys ++ [z]) ++ zs := by simp
        rw [e, e'] at r
        obtain ⟨h2, ns2, e2, r2⟩ := ih bs hn (as ++ [b]) ((h.node b).next) found r
          (by simp [hlen]) hnx
        refine ⟨h2, ns2, ?_, ?_⟩
        · simp only [xRemoveValueLoop, hstop, if_false, run_bind, run_getData, hd,
            Option.some.injEq, hz, run_getNext]
          simpa using e2
        · cases all with
          | true =>
            by_cases hy : ys = []
            · subst hy
              simpa [goneAll, List.dropWhile_cons, hz] using r2
            · simpa [hy, hz] using r2
          | false =>
            have hf : found = false := by simpa using hstop
            by_cases hy : ys = []
            · subst hy
              simpa [hf, goneFirst, hz] using r2
            · simpa [hf, hy, List.eraseP_cons, hz] using r2

theorem xRemove_mix {h : Heap V Bool} {l : Addr} {ns : List Addr} {ms : List (V × Bool)}
    (r : MixRep h l ns ms) (v : V) (all : Bool) :
    ∃ h' ns', xRemove l (.val v) (some all) h = (.ok (), h') ∧
      MixRep h' l ns' (if all = true then goneAll v ms else goneFirst v ms) := by
  obtain ⟨h', ns', e, r'⟩ := xRemoveValueLoop_mix v all ns [] (ys := []) (zs := ms)
    (h.lobj l).head false (by simpa using r) rfl r.rep.head
  refine ⟨h', ns', ?_, by simpa using r'⟩
  simp only [xRemove, validateItem, run_bind, run_lift_ok, run_getList, r.rep.len]
  exact e

theorem replaceValue_mix {h : Heap V Bool} {l : Addr} {ns : List Addr} {ms : List (V × Bool)}
    (r : MixRep h l ns ms) {i : Nat} (hi : i < ms.length) (v : V) :
    ∃ h', replaceValue .ll l i v h = (.ok (), h') ∧
      MixRep h' l ns (ms.modify i (fun z => (PyData.norm v, z.2))) := by
  obtain ⟨h', e, r', _, _⟩ := replaceValue_spec r.rep (i := i) (by simpa using hi) v
  have hx : ∀ a, (h'.node a).ext = (h.node a).ext := by
    have hlen := r.rep.length_eq
    simp only [List.length_map] at hlen
    obtain ⟨as, bs, rfl, ha⟩ := split_at_len ns (i := i) (by omega)
    obtain ⟨c, e1, hc⟩ := getNode_spec r.rep
    rw [ha] at e1
    rw [replaceValue, run_bind_ok e1] at e
    intro a
    cases c with
    | none => simp [run_bind] at e
    | some c =>
      simp only [run_bind, run_deref_some, setData, run_setDataRaw, Prod.mk.injEq, true_and] at e
      rw [← e]
      by_cases h1 : a = c <;> simp [upd, h1]
  have e1 : (ms.modify i (fun z => (PyData.norm v, z.2))).map (·.1)
      = (ms.map (·.1)).set i (PyData.norm v) := by
    apply List.ext_getElem?
    intro j
    simp only [List.getElem?_map, List.getElem?_modify, List.getElem?_set, List.length_map]
    by_cases hj : i = j
    · subst hj; simp [hi]
    · simp [hj]
  have e2 : (ms.modify i (fun z => (PyData.norm v, z.2))).map (·.2) = ms.map (·.2) := by
    apply List.ext_getElem?
    intro j
    simp only [List.getElem?_map, List.getElem?_modify]
    by_cases hj : i = j
    · subst hj; simp [hi]
    · simp [hj]
  refine ⟨h', e, by rw [e1]; exact r', by rw [e2, ← r.cls]; simp only [hx], ?_⟩
  have hm := r.mono
  rw [← List.pairwise_map (f := fun z : V × Bool => z.2) (R := fun x y => x = true → y = true)]
    at hm ⊢
  rw [e2]; exact hm

theorem validateIndex_place {h : Heap V Bool} {l : Addr} {ns : List Addr} {ms : List (V × Bool)}
    (r : MixRep h l ns ms) (i : Idx) :
    validateIndex .ll l i false false h =
      (match placeOf ms.length i with
        | .error e => (.error e, h)
        | .ok _ => (.ok (), h)) := by
  have hlen := r.rep.length_eq
  simp only [List.length_map] at hlen
  cases i with
  | slice s t u => rfl
  | other => rfl
  | int i =>
    simp only [validateIndex, placeOf, and_true]
    by_cases h1 : i ≤ -1
    · have : ¬ (0 ≤ i ∧ i ≤ (ms.length : Int)) := by omega
      simp [h1, this]
    · by_cases h2 : i ≤ (ms.length : Int)
      · have h3 : 0 ≤ i ∧ i ≤ (ms.length : Int) := by omega
        have h4 : ¬ (i < -(ms.length : Int) ∨ i > (ms.length : Int)) := by omega
        simp only [h1, if_false, run_bind, run_getList, r.rep.len, hlen, h4, h3, if_true, and_self, run_pure]
      · have h3 : ¬ (0 ≤ i ∧ i ≤ (ms.length : Int)) := by omega
        have h4 : (i < -(ms.length : Int) ∨ i > (ms.length : Int)) := by omega
        simp only [h1, if_false, run_bind, run_getList, r.rep.len, hlen, h4, if_true, h3, run_throw]

theorem xDelItem_mix {h : Heap V Bool} {l : Addr} {ns : List Addr} {ms : List (V × Bool)}
    (r : MixRep h l ns ms) (i : Idx) :
    ∃ h' ns', xDelItem l i h = ((mixCall (.delItem i) ms).1, h') ∧
      MixRep h' l ns' (mixCall (.delItem i) ms).2 := by
  have hlen := r.rep.length_eq
  simp only [List.length_map] at hlen
  simp only [xDelItem, run_bind, validateIndex_place r, mixCall]
  cases hp : placeOf ms.length i with
  | error e => exact ⟨h, ns, rfl, r⟩
  | ok j =>
    cases i with
    | slice s t u => cases hp
    | other => cases hp
    | int i =>
      simp only [placeOf] at hp
      by_cases hi : 0 ≤ i ∧ i ≤ (ms.length : Int)
      · rw [if_pos hi] at hp
        cases hp
        by_cases he : i = (ms.length : Int)
        · refine ⟨h, ns, ?_, ?_⟩
          · simp [r.rep.len, hlen, he]
          · simpa [he] using r
        · obtain ⟨h', ns', e', r'⟩ := xRemoveIdx_mix r (i := i.toNat) (by omega)
          have h2 : i.toNat ≠ ms.length := by omega
          refine ⟨h', ns', ?_, ?_⟩
          · simp [r.rep.len, hlen, he, Idx.toNat, e', h2]
          · simpa only [if_neg h2] using r'
      · rw [if_neg hi] at hp; cases hp

/-- one call does what the specification says -/
theorem xStep_mix {h : Heap V Bool} {l : Addr} {ns : List Addr} {ms : List (V × Bool)}
    (r : MixRep h l ns ms) (op : XOp V) :
    ∃ h' ns', xStep l op h = ((mixCall op ms).1, h') ∧ MixRep h' l ns' (mixCall op ms).2 := by
  have hlen := r.rep.length_eq
  simp only [List.length_map] at hlen
  cases op with
  | addFront it =>
    simp only [xStep, xAddFront, run_bind, mixCall]
    cases hv : validateItem it with
    | error e => exact ⟨h, ns, rfl, r⟩
    | ok v => exact xInsertAt_mix r (Nat.zero_le _) v
  | addEnd it =>
    simp only [xStep, xAddEnd, run_bind, mixCall]
    cases hv : validateItem it with
    | error e => exact ⟨h, ns, rfl, r⟩
    | ok v =>
      simp only [run_lift_ok, llLen, run_bind, run_getList, run_pure, r.rep.len, hlen]
      exact xInsertAt_mix r (Nat.le_refl _) v
  | insert i it =>
    simp only [xStep, xInsert, run_bind, mixCall, validateIndex_place r]
    cases hp : placeOf ms.length i with
    | error e => exact ⟨h, ns, rfl, r⟩
    | ok j =>
      cases hv : validateItem it with
      | error e => exact ⟨h, ns, rfl, r⟩
      | ok v =>
        have hj : i.toNat = j ∧ j ≤ ms.length := by
          cases i with
          | slice s t u => cases hp
          | other => cases hp
          | int i =>
            simp only [placeOf] at hp
            by_cases hi : 0 ≤ i ∧ i ≤ (ms.length : Int)
            · rw [if_pos hi] at hp
              cases hp
              exact ⟨rfl, by omega⟩
            · rw [if_neg hi] at hp; cases hp
        simp only [run_lift_ok, hj.1]
        exact xInsertAt_mix r hj.2 v
  | setItem i it =>
    simp only [xStep, setItem, run_bind, mixCall, validateIndex_place r]
    cases hp : placeOf ms.length i with
    | error e => exact ⟨h, ns, rfl, r⟩
    | ok j =>
      cases i with
      | slice s t u => cases hp
      | other => cases hp
      | int i =>
        simp only [placeOf] at hp
        by_cases hi : 0 ≤ i ∧ i ≤ (ms.length : Int)
        · rw [if_pos hi] at hp
          cases hp
          by_cases he : i = (ms.length : Int)
          · refine ⟨h, ns, ?_, ?_⟩
            · simp [r.rep.len, hlen, he]
            · simpa [he] using r
          · have h2 : i.toNat ≠ ms.length := by omega
            have h3 : Idx.int i ≠ .int ((h.lobj l).length : Int) := by
              rw [r.rep.len, hlen]; simpa using he
            simp only [run_getList, h3, if_false, h2]
            cases hv : validateItem it with
            | error e => exact ⟨h, ns, rfl, r⟩
            | ok v =>
              obtain ⟨h', e', r'⟩ := replaceValue_mix r (i := i.toNat) (by omega) v
              exact ⟨h', ns, by simp only [Idx.toNat]; exact e', r'⟩
        · rw [if_neg hi] at hp; cases hp
  | delItem i => exact xDelItem_mix r i
  | removeFront =>
    simp only [xStep, xRemoveFront, isEmpty, run_bind, run_getList, run_pure, r.rep.len, hlen]
    cases ms with
    | nil => exact ⟨h, ns, by simp [mixCall], by simpa [mixCall, frontGone] using r⟩
    | cons z ms =>
      obtain ⟨h', ns', e', r'⟩ := xDelItem_mix r (.int 0)
      have hc : mixCall (.delItem (.int 0)) (z :: ms) = (.ok (), frontGone (z :: ms)) := by
        have : (0 : Int) ≤ 0 ∧ (0 : Int) ≤ ((z :: ms).length : Int) := by omega
        simp only [mixCall, placeOf, if_pos this]
        simp [goneAt]
      rw [hc] at e' r'
      exact ⟨h', ns', by simpa [mixCall] using e', by simpa [mixCall] using r'⟩
  | removeEnd =>
    simp only [xStep, xRemoveEnd, isEmpty, run_bind, run_getList, run_pure, r.rep.len, hlen]
    cases ms with
    | nil => exact ⟨h, ns, by simp [mixCall], by simpa [mixCall, goneAt, frontGone] using r⟩
    | cons z ms =>
      obtain ⟨h', ns', e', r'⟩ := xDelItem_mix r (.int (((z :: ms).length : Int) - 1))
      have hc : mixCall (.delItem (.int (((z :: ms).length : Int) - 1))) (z :: ms)
          = (.ok (), goneAt ms.length (z :: ms)) := by
        have h1 : 0 ≤ ((z :: ms).length : Int) - 1 ∧
            ((z :: ms).length : Int) - 1 ≤ ((z :: ms).length : Int) := by
          rw [List.length_cons]; omega
        have h2 : (((z :: ms).length : Int) - 1).toNat = ms.length := by
          rw [List.length_cons]; omega
        simp only [mixCall, placeOf, if_pos h1, h2]
        simp
      rw [hc] at e' r'
      refine ⟨h', ns', ?_, by simpa [mixCall] using r'⟩
      have h3 : ((z :: ms).length == 0) = false := rfl
      simp only [h3, Bool.false_eq_true, if_false, run_bind, run_getList, r.rep.len, hlen]
      exact e'
  | remove it all =>
    cases all with
    | none => exact ⟨h, ns, rfl, r⟩
    | some all =>
      cases it with
      | none => exact ⟨h, ns, by cases all <;> rfl, by cases all <;> exact r⟩
      | extra => exact ⟨h, ns, by cases all <;> rfl, by cases all <;> exact r⟩
      | val v =>
        obtain ⟨h', ns', e', r'⟩ := xRemove_mix r v all
        exact ⟨h', ns', by cases all <;> exact e', by cases all <;> exact r'⟩
  | clear =>
    obtain ⟨h', e', r', _, _⟩ := clear_spec r.rep
    exact ⟨h', [], e', r', rfl, List.Pairwise.nil⟩

theorem xSteps_mix {l : Addr} : ∀ (ops : List (XOp V)) {h : Heap V Bool} {ns : List Addr}
    {ms : List (V × Bool)}, MixRep h l ns ms →
    ∃ h' ns', xSteps l ops h = ((mixCalls ops ms).1, h') ∧ MixRep h' l ns' (mixCalls ops ms).2
  | [], h, ns, ms, r => ⟨h, ns, rfl, r⟩
  | op :: ops, h, ns, ms, r => by
    obtain ⟨h1, ns1, e1, r1⟩ := xStep_mix r op
    obtain ⟨h2, ns2, e2, r2⟩ := xSteps_mix ops r1
    exact ⟨h2, ns2, by simp only [xSteps, e1, e2, mixCalls], r2⟩

end Extra
