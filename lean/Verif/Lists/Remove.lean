import Verif.Lists.Contracts

/-! # Contract of `_remove_node` -/

set_option linter.unusedSectionVars false
set_option linter.unusedSimpArgs false
attribute [local irreducible] Extra.upd

namespace Extra
variable {V X : Type} [PyData V] [Inhabited X]

/-- Which nodes remain after removing `n` from `as ++ n :: bs`.  At the front the code mostly
keeps the head node and copies the next node's data into it. -/
def leftNodes (k : Kind) (as : List Addr) (n : Addr) (bs : List Addr) : List Addr :=
  match as, bs with
  | [], _ :: bs' => if k = .dll ∧ bs' = [] then bs else n :: bs'
  | _, _ => as ++ bs

theorem leftNodes_subset {k : Kind} {as bs : List Addr} {n a : Addr}
    (h : a ∈ leftNodes k as n bs) : a ∈ as ++ n :: bs := by
  unfold leftNodes at h
  split at h
  · split at h <;> simp_all
    rcases h with h | h <;> simp [h]
  · simp at h ⊢; rcases h with h | h <;> simp [h]

theorem leftNodes_take {k : Kind} {as bs : List Addr} {n : Addr} :
    (leftNodes k as n bs).take as.length = as := by
  unfold leftNodes; split
  · simp
  · simp

theorem data_remove {d : Addr → Option V} {as bs : List Addr} {ys zs : List V} {n : Addr} {x : V}
    (hlen : as.length = ys.length) (h : (as ++ n :: bs).map d = (ys ++ x :: zs).map some) :
    as.map d = ys.map some ∧ d n = some x ∧ bs.map d = zs.map some := by
  simp only [List.map_append, List.map_cons] at h
  obtain ⟨h1, h2⟩ := List.append_inj h (by simpa using hlen)
  simp only [List.cons.injEq] at h2
  exact ⟨h1, h2⟩

/-- the outcome of removing a node -/
def Removed (k : Kind) (h h' : Heap V X) (l : Addr) (as : List Addr) (n : Addr) (bs : List Addr)
    (ys zs : List V) : Prop :=
  Rep k h' l (leftNodes k as n bs) (ys ++ zs) ∧
  Frame h h' (fun a => a ∈ as ++ n :: bs) (· = l) ∧ h'.nNodes = h.nNodes ∧ h'.nLists = h.nLists ∧
  (∀ a, (h'.node a).ext = (h.node a).ext)

/-- linked and circular lists: both run the same writes -/
theorem removeNodeLL_spec {k : Kind} (hk : k ≠ .dll) {h : Heap V X} {l : Addr} {as bs : List Addr}
    {ys zs : List V} {n : Addr} {x : V}
    (r : Rep k h l (as ++ n :: bs) (ys ++ x :: zs)) (hlen : as.length = ys.length) :
    ∃ h', removeNode k l as.getLast? n h = (.ok (), h') ∧ Removed k h h' l as n bs ys zs := by
  have hl := r.len
  have hnd := r.nodup
  have hlk := r.links
  obtain ⟨d1, d2, d3⟩ := data_remove hlen r.data
  have hnorm : ∀ y ∈ ys ++ zs, PyData.norm y = y := fun y hy => r.normed y (by
    simp at hy ⊢; rcases hy with hy | hy <;> simp [hy])
  rcases List.eq_nil_or_concat as with rfl | ⟨as', p, rfl⟩
  · have hys : ys = [] := List.eq_nil_of_length_eq_zero (by simpa using hlen.symm)
    subst hys
    simp only [List.nil_append, List.getLast?_nil] at *
    have hhd := r.head (by simp)
    simp only [List.head?_cons] at hhd
    cases bs with
    | nil =>
      have hz : zs = [] := by simpa using d3
      subst hz
      simp only [List.length_singleton] at hl
      obtain ⟨h', he, hN, hL, e1, e2⟩ : ∃ h', removeNode k l none n h = (.ok (), h') ∧
          h'.node = upd h.node n { h.node n with data := none } ∧
          h'.lobj = upd h.lobj l { h.lobj l with length := 0 } ∧
          h'.nNodes = h.nNodes ∧ h'.nLists = h.nLists := by
        refine ⟨⟨_, _, _, _⟩, ?_, rfl, rfl, rfl, rfl⟩
        cases k <;> simp_all [removeNode, removeNodeLL, removeNodeCLL, run_bind, Heap.setNode,
          Heap.setList]
      refine ⟨h', he, ?_, ⟨fun a _ ha => ?_, fun a _ ha => ?_, Nat.le_of_eq e1.symm,
        Nat.le_of_eq e2.symm⟩, e1, e2, ?_⟩
      · simp only [leftNodes, List.append_nil]
        exact ⟨by simp [hL], by simp, by simp, by simp, by simp, by rw [e2]; exact r.lbound,
          by simp, fun a ha => by rw [hL] at ha; rw [e1]; exact r.hbound a (by simpa using ha),
          trivial, fun _ => trivial, by simp⟩
      · rw [hN, upd_ne _ _ (by simpa using ha)]
      · rw [hL, upd_ne _ _ ha]
      · intro a; by_cases e : a = n <;> simp [hN, upd, e]
    | cons b bs =>
      obtain ⟨z, zs', rfl⟩ : ∃ z zs', zs = z :: zs' := by
        cases zs with
        | nil => simp at d3
        | cons z zs' => exact ⟨z, zs', rfl⟩
      simp only [List.map_cons, List.cons.injEq] at d3
      have hz : PyData.norm z = z := hnorm z (by simp)
      have hnb : n ≠ b := by
        have := (List.nodup_cons.1 hnd).1; simp at this; exact this.1
      have hl1 : (h.lobj l).length ≠ 1 := by rw [hl]; simp
      have hnx : (h.node n).next = some b := by simpa using hlk.1
      have hbx := hlk.2.1
      obtain ⟨h', he, hN, hL, e1, e2⟩ : ∃ h', removeNode k l none n h = (.ok (), h') ∧
          h'.node = upd h.node n { h.node n with data := some z, next := (h.node b).next } ∧
          h'.lobj = upd h.lobj l { h.lobj l with length := (h.lobj l).length - 1 } ∧
          h'.nNodes = h.nNodes ∧ h'.nLists = h.nLists := by
        refine ⟨⟨_, _, _, _⟩, ?_, rfl, rfl, rfl, rfl⟩
        cases k with
        | dll => exact absurd rfl hk
        | ll => simp [removeNode, removeNodeLL, run_bind, Heap.setNode, Heap.setList, hl1, hhd, hnx,
            setNext, setData, upd_upd, upd_ne _ _ hnb.symm, d3.1, hz]
        | cll => simp [removeNode, removeNodeCLL, run_bind, Heap.setNode, Heap.setList, hl1, hhd, hnx,
            setNext, setData, upd_upd, upd_ne _ _ hnb.symm, d3.1, hz]
      have hno : n ∉ bs := by
        have := (List.nodup_cons.1 hnd).1; simp at this; exact this.2
      have ho : ∀ a ∈ bs, h'.node a = h.node a := fun a ha => by
        rw [hN, upd_ne _ _ (by rintro rfl; exact hno ha)]
      have hln : leftNodes k [] n (b :: bs) = n :: bs := by simp [leftNodes, hk]
      have hend : endOf k (n :: bs) = endOf k (n :: b :: bs) := by cases k <;> simp [endOf]
      refine ⟨h', he, ?_, ⟨fun a _ ha => ?_, fun a _ ha => ?_, Nat.le_of_eq e1.symm,
        Nat.le_of_eq e2.symm⟩, e1, e2, ?_⟩
      · rw [hln]
        refine ⟨by simp [hL, hl], ?_, hnorm, ?_, ?_, by rw [e2]; exact r.lbound, ?_, ?_, ?_,
          fun e => absurd e hk, fun e => absurd e hk⟩
        · simp only [List.map_cons, hN, upd_same, List.nil_append, ← d3.2]
          congr 1
          exact List.map_congr_left (fun a ha => by rw [← hN, ho a ha])
        · exact List.nodup_cons.2 ⟨hno, (List.nodup_cons.1 (List.nodup_cons.1 hnd).2).2⟩
        · intro a ha; rw [e1]; apply r.bound; simp at ha ⊢; rcases ha with ha | ha <;> simp [ha]
        · intro _; simp [hL, hhd]
        · intro a ha; rw [hL] at ha; rw [e1]; exact r.hbound a (by simpa using ha)
        · refine ⟨?_, Lnk.congr (h := h) (fun a ha => by rw [ho a ha]) ?_⟩
          · simp only [hN, upd_same, hend]; exact hbx
          · rw [hend]; exact hlk.2.2
      · rw [hN, upd_ne _ _ (by rintro rfl; simp at ha)]
      · rw [hL, upd_ne _ _ ha]
      · intro a; by_cases e : a = n <;> simp [hN, upd, e]
  · simp only [List.concat_eq_append, List.getLast?_append, List.getLast?_singleton,
      Option.some_or] at *
    have hln : leftNodes k (as' ++ [p]) n bs = as' ++ [p] ++ bs := by
      unfold leftNodes; split <;> simp_all
    have hend : endOf k (as' ++ [p] ++ bs) = endOf k (as' ++ [p] ++ n :: bs) := by
      cases k <;> cases as' <;> simp [endOf]
    obtain ⟨h', he, hN, hL, e1, e2⟩ : ∃ h', removeNode k l (some p) n h = (.ok (), h') ∧
        h'.node = upd h.node p { h.node p with next := (h.node n).next } ∧
        h'.lobj = upd h.lobj l { h.lobj l with length := (h.lobj l).length - 1 } ∧
        h'.nNodes = h.nNodes ∧ h'.nLists = h.nLists := by
      refine ⟨⟨_, _, _, _⟩, ?_, rfl, rfl, rfl, rfl⟩
      cases k with
      | dll => exact absurd rfl hk
      | ll => simp [removeNode, removeNodeLL, run_bind, Heap.setNode, Heap.setList, setNext]
      | cll => simp [removeNode, removeNodeCLL, run_bind, Heap.setNode, Heap.setList, setNext]
    rw [← hend, List.append_assoc, Lnk_append] at hlk
    obtain ⟨l1, l2, l3, l4⟩ := hlk
    have hnd' : (as' ++ p :: n :: bs).Nodup := by simpa using hnd
    have hpa : p ∉ as' ∧ p ∉ bs := by
      have := (List.perm_middle.nodup_iff.1 hnd')
      rw [List.nodup_cons] at this
      have := this.1
      simp only [List.mem_append, List.mem_cons, not_or] at this
      exact ⟨this.1, this.2.2⟩
    have hdd : ∀ a, (h'.node a).data = (h.node a).data := fun a => by
      by_cases e : a = p <;> simp [hN, upd, e]
    refine ⟨h', he, ?_, ⟨fun a _ ha => ?_, fun a _ ha => ?_, Nat.le_of_eq e1.symm,
      Nat.le_of_eq e2.symm⟩, e1, e2, ?_⟩
    · rw [hln]
      refine ⟨by simp [hL, hl], ?_, hnorm, ?_, ?_, by rw [e2]; exact r.lbound, ?_, ?_, ?_,
        fun e => absurd e hk, fun e => absurd e hk⟩
      · rw [List.map_append, List.map_append (f := some), ← d1, ← d3]
        simp only [hdd]
      · rw [List.perm_middle.nodup_iff, List.nodup_cons] at hnd; exact hnd.2
      · intro a ha; rw [e1]; apply r.bound; simp at ha ⊢; rcases ha with ha | ha | ha <;> simp [ha]
      · intro _; simp only [hL, upd_same]; rw [r.head (by simp)]; cases as' <;> simp
      · intro a ha; rw [hL] at ha; rw [e1]; exact r.hbound a (by simpa using ha)
      · rw [List.append_assoc, Lnk_append]
        rw [List.append_assoc] at l1 l2 l3 l4
        refine ⟨Lnk.congr (h := h) ?_ l1, ?_, Lnk.congr (h := h) ?_ l4⟩
        · intro a ha; rw [hN, upd_ne _ _ (by rintro rfl; exact hpa.1 ha)]
        · simp only [hN, upd_same]; exact l3
        · intro a ha; rw [hN, upd_ne _ _ (by rintro rfl; exact hpa.2 ha)]
    · simp only [List.mem_append, List.mem_cons, not_or] at ha; rw [hN, upd_ne _ _ ha.1.2.1]
    · rw [hL, upd_ne _ _ ha]
    · intro a; by_cases e : a = p <;> simp [hN, upd, e]

theorem removeNodeDLL_spec {h : Heap V X} {l : Addr} {as bs : List Addr}
    {ys zs : List V} {n : Addr} {x : V}
    (r : Rep .dll h l (as ++ n :: bs) (ys ++ x :: zs)) (hlen : as.length = ys.length) :
    ∃ h', removeNode .dll l as.getLast? n h = (.ok (), h') ∧ Removed .dll h h' l as n bs ys zs := by
  have hl := r.len
  have hnd := r.nodup
  have hlk := r.links
  have hpl := r.plinks rfl
  have htl := r.tail rfl (by simp)
  simp only [endOf] at hlk
  obtain ⟨d1, d2, d3⟩ := data_remove hlen r.data
  have hnorm : ∀ y ∈ ys ++ zs, PyData.norm y = y := fun y hy => r.normed y (by
    simp at hy ⊢; rcases hy with hy | hy <;> simp [hy])
  rcases List.eq_nil_or_concat as with rfl | ⟨as', p, rfl⟩
  · have hys : ys = [] := List.eq_nil_of_length_eq_zero (by simpa using hlen.symm)
    subst hys
    simp only [List.nil_append, List.getLast?_nil] at *
    have hhd := r.head (by simp)
    simp only [List.head?_cons] at hhd
    match bs, hl, hnd, hlk, hpl, htl, d3, r with
    | [], hl, hnd, hlk, hpl, htl, d3, r =>
      have hz : zs = [] := by simpa using d3
      subst hz
      simp only [List.length_singleton] at hl
      simp only [List.getLast?_singleton] at htl
      obtain ⟨h', he, hN, hL, e1, e2⟩ : ∃ h', removeNode .dll l none n h = (.ok (), h') ∧
          h'.node = h.node ∧
          h'.lobj = upd h.lobj l { h.lobj l with length := 0 } ∧
          h'.nNodes = h.nNodes ∧ h'.nLists = h.nLists := by
        refine ⟨⟨h.node, upd h.lobj l { h.lobj l with length := 0 }, h.nNodes, h.nLists⟩, ?_, rfl, rfl, rfl, rfl⟩
        simp [removeNode, removeNodeDLL, run_bind, Heap.setList, hl, hhd, htl]
      refine ⟨h', he, ?_, ⟨fun a _ ha => ?_, fun a _ ha => ?_, Nat.le_of_eq e1.symm,
        Nat.le_of_eq e2.symm⟩, e1, e2, fun a => by rw [hN]⟩
      · simp only [leftNodes, List.append_nil]
        exact ⟨by simp [hL], by simp, by simp, by simp, by simp, by rw [e2]; exact r.lbound,
          by simp, fun a ha => by rw [hL] at ha; rw [e1]; exact r.hbound a (by simpa using ha),
          trivial, fun _ => trivial, by simp⟩
      · rw [hN]
      · rw [hL, upd_ne _ _ ha]
    | [b], hl, hnd, hlk, hpl, htl, d3, r =>
      simp only [List.length_cons, List.length_nil] at hl
      have hnb : n ≠ b := by simpa using hnd
      have hnx : (h.node n).next = some b := by simpa using hlk.1
      have htl : (h.lobj l).tail = some b := by simpa using htl
      obtain ⟨h', he, hN, hL, e1, e2⟩ : ∃ h', removeNode .dll l none n h = (.ok (), h') ∧
          h'.node = upd h.node b { h.node b with prev := none } ∧
          h'.lobj = upd h.lobj l { h.lobj l with head := some b, length := 1 } ∧
          h'.nNodes = h.nNodes ∧ h'.nLists = h.nLists := by
        refine ⟨⟨_, _, _, _⟩, ?_, rfl, rfl, rfl, rfl⟩
        simp [removeNode, removeNodeDLL, run_bind, Heap.setNode, Heap.setList, hl, hnx, setPrev,
          upd_upd]
      have hb : b < h.nNodes := r.bound b (by simp)
      refine ⟨h', he, ?_, ⟨fun a _ ha => ?_, fun a _ ha => ?_, Nat.le_of_eq e1.symm,
        Nat.le_of_eq e2.symm⟩, e1, e2, fun a => by by_cases e : a = b <;> simp [hN, upd, e]⟩
      · have : leftNodes .dll [] n [b] = [b] := by simp [leftNodes]
        rw [this]
        refine ⟨by simp [hL], by simpa [hN] using d3, hnorm, by simp, by simp [e1, hb],
          by rw [e2]; exact r.lbound, by simp [hL], ?_, ?_, ?_, ?_⟩
        · intro a ha; simp [hL] at ha; subst ha; rw [e1]; exact hb
        · have := hlk.2.1
          simpa [Lnk, endOf, hN] using this
        · simp [PLnk, hN]
        · simp [hL, htl]
      · rw [hN, upd_ne _ _ (by rintro rfl; simp at ha)]
      · rw [hL, upd_ne _ _ ha]
    | b :: c :: bs, hl, hnd, hlk, hpl, htl, d3, r =>
      obtain ⟨z, zs', rfl⟩ : ∃ z zs', zs = z :: zs' := by
        cases zs with
        | nil => simp at d3
        | cons z zs' => exact ⟨z, zs', rfl⟩
      rw [List.map_cons, List.map_cons (f := some), List.cons.injEq] at d3
      have hz : PyData.norm z = z := hnorm z (by simp)
      simp only [List.nodup_cons, List.mem_cons, not_or] at hnd
      obtain ⟨⟨hnb, hnc, hno⟩, ⟨hbc, hbo⟩, hco, hnd⟩ := hnd
      have hl1 : (h.lobj l).length ≠ 1 := by rw [hl]; simp
      have hl2 : (h.lobj l).length ≠ 2 := by rw [hl]; simp
      have hnx : (h.node n).next = some b := by simpa using hlk.1
      have hbx : (h.node b).next = some c := by simpa using hlk.2.1
      obtain ⟨h', he, hN, hL, e1, e2⟩ : ∃ h', removeNode .dll l none n h = (.ok (), h') ∧
          h'.node = upd (upd h.node n { h.node n with data := some z, next := some c }) c
            { h.node c with prev := some n } ∧
          h'.lobj = upd h.lobj l { h.lobj l with length := (h.lobj l).length - 1 } ∧
          h'.nNodes = h.nNodes ∧ h'.nLists = h.nLists := by
        refine ⟨⟨_, _, _, _⟩, ?_, rfl, rfl, rfl, rfl⟩
        simp [removeNode, removeNodeDLL, removeNodeLL, run_bind, Heap.setNode, Heap.setList, hl1,
          hl2, hhd, hnx, hbx, setNext, setData, upd_upd, upd_ne _ _ (Ne.symm hnb),
          upd_ne _ _ hnc, upd_ne _ _ (Ne.symm hnc), upd_ne _ _ hbc, d3.1, hz]
        funext a
        by_cases x : a = n <;> by_cases y : a = c <;> simp [upd, x, y, hnc, Ne.symm hnc]
        all_goals simp_all
      have nn : (h'.node n).next = some c ∧ (h'.node n).data = some z ∧
          (h'.node n).prev = (h.node n).prev := by simp [hN, upd_ne _ _ hnc]
      have nc : (h'.node c).next = (h.node c).next ∧ (h'.node c).data = (h.node c).data ∧
          (h'.node c).prev = some n := by simp [hN]
      have ho : ∀ a ∈ bs, h'.node a = h.node a := fun a ha => by
        rw [hN, upd_ne _ _ (by rintro rfl; exact hco ha), upd_ne _ _ (by rintro rfl; exact hno ha)]
      refine ⟨h', he, ?_, ⟨fun a _ ha => ?_, fun a _ ha => ?_, Nat.le_of_eq e1.symm,
        Nat.le_of_eq e2.symm⟩, e1, e2, ?_⟩
      · have : leftNodes .dll [] n (b :: c :: bs) = n :: c :: bs := by simp [leftNodes]
        rw [this]
        refine ⟨by simp [hL, hl], ?_, hnorm, ?_, ?_, by rw [e2]; exact r.lbound, ?_, ?_, ?_, ?_, ?_⟩
        · rw [List.nil_append, List.map_cons, List.map_cons (f := some), ← d3.2, nn.2.1,
            List.map_cons, List.map_cons, nc.2.1]
          congr 2
          exact List.map_congr_left (fun a ha => by rw [ho a ha])
        · simp [hnc, hno, hco, hnd]
        · intro a ha; rw [e1]; apply r.bound; simp at ha ⊢
          rcases ha with ha | ha | ha <;> simp [ha]
        · intro _; simp [hL, hhd]
        · intro a ha; rw [hL] at ha; rw [e1]; exact r.hbound a (by simpa using ha)
        · exact ⟨by simpa using nn.1, by rw [nc.1]; exact hlk.2.2.1,
            Lnk.congr (h := h) (fun a ha => by rw [ho a ha]) hlk.2.2.2⟩
        · exact fun _ => ⟨by rw [nn.2.2]; exact hpl.1, nc.2.2,
            PLnk.congr (h := h) (fun a ha => by rw [ho a ha]) hpl.2.2.2⟩
        · intro _ _; simp only [hL, upd_same]; rw [htl]; simp [List.getLast?_cons]
      · rw [hN, upd_ne _ _ (by rintro rfl; simp at ha), upd_ne _ _ (by rintro rfl; simp at ha)]
      · rw [hL, upd_ne _ _ ha]
      · intro a
        by_cases x : a = n
        · subst x; simp [hN, upd, hnc]
        · by_cases y : a = c <;> simp [hN, upd, x, y, Ne.symm hnc]
  · simp only [List.concat_eq_append, List.getLast?_append, List.getLast?_singleton,
      Option.some_or] at *
    have hln : leftNodes .dll (as' ++ [p]) n bs = as' ++ [p] ++ bs := by
      unfold leftNodes; split <;> simp_all
    rw [List.append_assoc, Lnk_append] at hlk
    obtain ⟨l1, l2, l3, l4⟩ := hlk
    rw [List.append_assoc, PLnk_append] at hpl
    obtain ⟨q1, q2, q3, q4⟩ := hpl
    have hnd' : (as' ++ p :: n :: bs).Nodup := by simpa using hnd
    have hpa : p ∉ as' ∧ p ≠ n ∧ p ∉ bs := by
      have := (List.perm_middle.nodup_iff.1 hnd')
      rw [List.nodup_cons] at this
      have := this.1
      simpa only [List.mem_append, List.mem_cons, not_or] using this
    have hl0 : (h.lobj l).length = as'.length + bs.length + 2 := by rw [hl]; simp; omega
    have hl1 : (h.lobj l).length ≠ 1 := by omega
    have hhd := r.head (by simp)
    have hnd2 : (as' ++ [p] ++ bs).Nodup := by
      rw [List.perm_middle.nodup_iff, List.nodup_cons] at hnd; exact hnd.2
    cases bs with
    | nil =>
      have hnx : (h.node n).next = none := by simpa using l3
      obtain ⟨h', he, hN, hL, e1, e2⟩ : ∃ h', removeNode .dll l (some p) n h = (.ok (), h') ∧
          h'.node = upd h.node p { h.node p with next := none } ∧
          h'.lobj = upd h.lobj l
            { h.lobj l with tail := some p, length := (h.lobj l).length - 1 } ∧
          h'.nNodes = h.nNodes ∧ h'.nLists = h.nLists := by
        refine ⟨⟨_, _, _, _⟩, ?_, rfl, rfl, rfl, rfl⟩
        by_cases hl2 : (h.lobj l).length = 2
        · simp [removeNode, removeNodeDLL, run_bind, Heap.setNode, Heap.setList, setNext, hnx, hl2,
            upd_upd]
        · simp [removeNode, removeNodeDLL, run_bind, Heap.setNode, Heap.setList, setNext, hnx, hl1,
            hl2, upd_upd]
      have hdd : ∀ a, (h'.node a).data = (h.node a).data ∧ (h'.node a).prev = (h.node a).prev :=
        fun a => by by_cases e : a = p <;> simp [hN, upd, e]
      refine ⟨h', he, ?_, ⟨fun a _ ha => ?_, fun a _ ha => ?_, Nat.le_of_eq e1.symm,
        Nat.le_of_eq e2.symm⟩, e1, e2, fun a => by by_cases e : a = p <;> simp [hN, upd, e]⟩
      · rw [hln]
        refine ⟨by simp [hL, hl0], ?_, hnorm, hnd2, ?_, by rw [e2]; exact r.lbound, ?_, ?_, ?_, ?_,
          ?_⟩
        · rw [List.map_append, List.map_append (f := some), ← d1, ← d3]
          simp only [hdd]
        · intro a ha; rw [e1]; apply r.bound; simp at ha ⊢; rcases ha with ha | ha <;> simp [ha]
        · intro _; simp only [hL, upd_same]; rw [hhd]; cases as' <;> simp
        · intro a ha; rw [hL] at ha; rw [e1]; exact r.hbound a (by simpa using ha)
        · rw [List.append_nil, Lnk_append]
          refine ⟨Lnk.congr (h := h) ?_ l1, ?_, trivial⟩
          · intro a ha; rw [hN, upd_ne _ _ (by rintro rfl; exact hpa.1 ha)]
          · simp [hN, endOf]
        · intro _
          rw [List.append_nil, PLnk_append]
          exact ⟨PLnk.congr (h := h) (fun a _ => (hdd a).2) q1, by rw [(hdd p).2, q2], trivial⟩
        · intro _ _; simp [hL]
      · rw [hN, upd_ne _ _ (by rintro rfl; simp at ha)]
      · rw [hL, upd_ne _ _ ha]
    | cons b bs =>
      have hl0' : (h.lobj l).length - 1 = (as' ++ [p] ++ b :: bs).length := by
        rw [hl0]; simp; omega
      simp only [List.mem_cons, not_or] at hpa
      have hbp := Ne.symm hpa.2.2.1
      have hnx : (h.node n).next = some b := by simpa using l3
      have hl2 : (h.lobj l).length ≠ 2 := by rw [hl0]; simp
      have hba : b ∉ as' ∧ b ∉ bs := by
        rw [List.append_assoc] at hnd2
        have h1 := (List.nodup_append.1 hnd2)
        have h2 := List.nodup_cons.1 (List.nodup_cons.1 h1.2.1).2
        exact ⟨fun e => h1.2.2 b e b (by simp) rfl, h2.1⟩
      obtain ⟨h', he, hN, hL, e1, e2⟩ : ∃ h', removeNode .dll l (some p) n h = (.ok (), h') ∧
          h'.node = upd (upd h.node p { h.node p with next := some b }) b
            { h.node b with prev := some p } ∧
          h'.lobj = upd h.lobj l { h.lobj l with length := (h.lobj l).length - 1 } ∧
          h'.nNodes = h.nNodes ∧ h'.nLists = h.nLists := by
        refine ⟨⟨_, _, _, _⟩, ?_, rfl, rfl, rfl, rfl⟩
        simp [removeNode, removeNodeDLL, removeNodeLL, run_bind, Heap.setNode, Heap.setList,
            setNext, hnx, hl1, hl2, upd_upd, upd_ne _ _ hbp]
      have np : (h'.node p).next = some b ∧ (h'.node p).prev = (h.node p).prev := by
        simp [hN, upd_ne _ _ hpa.2.2.1]
      have nb : (h'.node b).next = (h.node b).next ∧ (h'.node b).prev = some p := by simp [hN]
      have hdd : ∀ a, (h'.node a).data = (h.node a).data ∧ (h'.node a).ext = (h.node a).ext :=
        fun a => by
          by_cases x : a = b
          · subst x; simp [hN]
          · by_cases y : a = p
            · subst y; simp [hN, upd, x]
            · simp [hN, upd, x, y]
      have ho : ∀ a, a ≠ p → a ≠ b → h'.node a = h.node a := fun a x y => by
        rw [hN, upd_ne _ _ y, upd_ne _ _ x]
      refine ⟨h', he, ?_, ⟨fun a _ ha => ?_, fun a _ ha => ?_, Nat.le_of_eq e1.symm,
        Nat.le_of_eq e2.symm⟩, e1, e2, fun a => (hdd a).2⟩
      · rw [hln]
        refine ⟨by rw [hL, upd_same]; exact hl0', ?_, hnorm, hnd2, ?_, by rw [e2]; exact r.lbound, ?_, ?_, ?_, ?_,
          ?_⟩
        · rw [List.map_append, List.map_append (f := some), ← d1, ← d3]
          simp only [hdd]
        · intro a ha; rw [e1]; apply r.bound; simp at ha ⊢
          rcases ha with ha | ha | ha | ha <;> simp [ha]
        · intro _; simp only [hL, upd_same]; rw [hhd]; cases as' <;> simp
        · intro a ha; rw [hL] at ha; rw [e1]; exact r.hbound a (by simpa using ha)
        · rw [List.append_assoc, Lnk_append]
          refine ⟨Lnk.congr (h := h) ?_ l1, by simpa using np.1, by rw [nb.1]; exact l4.1,
            Lnk.congr (h := h) ?_ l4.2⟩
          · intro a ha
            rw [ho a (by rintro rfl; exact hpa.1 ha) (by rintro rfl; exact hba.1 ha)]
          · intro a ha
            rw [ho a (by rintro rfl; exact hpa.2.2.2 ha) (by rintro rfl; exact hba.2 ha)]
        · intro _
          rw [List.append_assoc, PLnk_append]
          refine ⟨PLnk.congr (h := h) ?_ q1, by rw [np.2, q2], nb.2, PLnk.congr (h := h) ?_ q4.2⟩
          · intro a ha
            rw [ho a (by rintro rfl; exact hpa.1 ha) (by rintro rfl; exact hba.1 ha)]
          · intro a ha
            rw [ho a (by rintro rfl; exact hpa.2.2.2 ha) (by rintro rfl; exact hba.2 ha)]
        · intro _ _
          simp only [hL, upd_same]; rw [htl]; simp [List.getLast?_append, List.getLast?_cons]
      · rw [ho a (by rintro rfl; simp at ha) (by rintro rfl; simp at ha)]
      · rw [hL, upd_ne _ _ ha]

/-- contract of `_remove_node` for all classes -/
theorem removeNode_spec {k : Kind} {h : Heap V X} {l : Addr} {as bs : List Addr}
    {ys zs : List V} {n : Addr} {x : V}
    (r : Rep k h l (as ++ n :: bs) (ys ++ x :: zs)) (hlen : as.length = ys.length) :
    ∃ h', removeNode k l as.getLast? n h = (.ok (), h') ∧ Removed k h h' l as n bs ys zs := by
  by_cases hk : k = .dll
  · subst hk; exact removeNodeDLL_spec r hlen
  · exact removeNodeLL_spec hk r hlen

end Extra
