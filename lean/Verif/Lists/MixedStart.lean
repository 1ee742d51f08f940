import Verif.Lists.MixedProofs
import Verif.Lists.Extend
import Verif.Lists.PropsAux

/-!
# Where lists with nodes of two classes come from; circular chains in a `LinkedList()`
-/

set_option linter.unusedSectionVars false

namespace Extra
variable {V : Type} [PyData V]

/-- a `DoublyLinkedList()` read as a `LinkedList()` -/
theorem Rep.ll_of_dll {X : Type} {h : Heap V X} {l : Addr} {ns : List Addr} {xs : List V}
    (r : Rep .dll h l ns xs) : Rep .ll h l ns xs :=
  ⟨r.len, r.data, r.normed, r.nodup, r.bound, r.lbound, r.head, r.hbound, r.links,
    (by intro e; cases e), (by intro e; cases e)⟩

/-- nodes of one class only -/
theorem Rep.mix {h : Heap V Bool} {l : Addr} {ns : List Addr} {xs : List V} {c : Bool}
    (r : Rep .ll h l ns xs) (hx : ∀ a ∈ ns, (h.node a).ext = c) :
    MixRep h l ns (xs.map (fun x => (x, c))) := by
  have hlen := r.length_eq
  refine ⟨by simpa [Function.comp_def] using r, ?_, ?_⟩
  · rw [List.map_congr_left hx]
    simp [Function.comp_def, List.map_const', hlen]
  · rw [List.pairwise_map]
    exact List.pairwise_of_forall (fun _ _ e => e)

/-- what `K(other)` of class `LinkedList` makes of a list -/
theorem initAlias_ll {X : Type} [Inhabited X] (h : Heap V X) (o : Addr) (ho : o < h.nLists) :
    ∃ h', initAlias .ll o h = (.ok h.nLists, h') ∧ h'.node = h.node ∧ h'.nNodes = h.nNodes ∧
      h'.nLists = h.nLists + 1 ∧ (h'.lobj h.nLists).head = (h.lobj o).head ∧
      (h'.lobj h.nLists).length = (h.lobj o).length ∧ ∀ a, a < h.nLists → h'.lobj a = h.lobj a := by
  have hne : o ≠ h.nLists := Nat.ne_of_lt ho
  refine ⟨⟨h.node, upd h.lobj h.nLists ⟨(h.lobj o).head, none, (h.lobj o).length⟩, h.nNodes,
    h.nLists + 1⟩, ?_, rfl, rfl, rfl, by simp, by simp,
    fun a ha => upd_ne _ _ (Nat.ne_of_lt ha)⟩
  simp [initAlias, newList, run_bind, upd_ne _ _ hne, Heap.setList, upd_upd]

theorem initAlias_mix {h : Heap V Bool} {d : Addr} {ns : List Addr} {ms : List (V × Bool)}
    (r : MixRep h d ns ms) :
    ∃ h', initAlias .ll d h = (.ok h.nLists, h') ∧ MixRep h' h.nLists ns ms := by
  obtain ⟨h', e, hN, n1, n2, hd, hl, _⟩ := initAlias_ll h d r.rep.lbound
  refine ⟨h', e, ⟨by rw [hl]; exact r.rep.len, by rw [hN]; exact r.rep.data, r.rep.normed,
    r.rep.nodup, by rw [n1]; exact r.rep.bound, by omega, fun hne => by rw [hd]; exact r.rep.head hne,
    fun a ha => by rw [n1]; rw [hd] at ha; exact r.rep.hbound a ha,
    r.rep.links.congr (fun a _ => by rw [hN]), (by intro e; cases e), (by intro e; cases e)⟩,
    by rw [hN]; exact r.cls, r.mono⟩

/-- `DoublyLinkedList(items)` consists of `DoublyNode()`s -/
theorem xMakeDoubly_mix {items : List (Item V)} {vs : List V}
    (hv : items.mapM validateItem = .ok vs) (h : Heap V Bool) :
    ∃ h' d ns, xMakeDoubly items h = (.ok d, h') ∧
      MixRep h' d ns (vs.map (fun v => (PyData.norm v, true))) ∧
      Rep .dll h' d ns (vs.map PyData.norm) := by
  have := initFrom_spec .dll items h
  rw [hv] at this
  obtain ⟨h1, d, ns, e, b⟩ := this
  have hb : ∀ a ∈ ns, h.nNodes ≤ a ∧ a < h1.nNodes :=
    fun a ha => ⟨b.own a (Or.inl ha), b.rep.bound a ha⟩
  let h2 : Heap V Bool := { h1 with node := fun a =>
    if h.nNodes ≤ a ∧ a < h1.nNodes then { h1.node a with ext := true } else h1.node a }
  have hd : ∀ a, (h2.node a).data = (h1.node a).data ∧ (h2.node a).next = (h1.node a).next ∧
      (h2.node a).prev = (h1.node a).prev := fun a => by
    by_cases hc : h.nNodes ≤ a ∧ a < h1.nNodes <;> simp [h2, hc]
  have hx : ∀ a ∈ ns, (h2.node a).ext = true := fun a ha => by simp [h2, hb a ha]
  have r2 : Rep .dll h2 d ns (vs.map PyData.norm) := by
    have r := b.rep
    refine ⟨r.len, ?_, r.normed, r.nodup, r.bound, r.lbound, r.head, r.hbound,
      r.links.congr (fun a _ => (hd a).2.1), fun e => (r.plinks e).congr (fun a _ => (hd a).2.2),
      r.tail⟩
    rw [← r.data]
    exact List.map_congr_left (fun a _ => (hd a).1)
  refine ⟨h2, d, ns, ?_, ?_, r2⟩
  · simp only [xMakeDoubly, e, h2]
  · have := r2.ll_of_dll.mix hx
    simpa [Function.comp_def] using this

/-- `extend` -/
theorem xExtend_mix {h : Heap V Bool} {l o : Addr} {ns ns' : List Addr} {ms ms' : List (V × Bool)}
    (r : MixRep h l ns ms) (ro : MixRep h o ns' ms') (hd : ∀ a ∈ ns, a ∉ ns') (hlo : l ≠ o) :
    if (ms.getLast?.map (·.2)).getD false = true ∧ (ms'.head?.map (·.2)).getD true = false then
      xExtend l o h = (.error .typeError, h)
    else ∃ h', xExtend l o h = (.ok (), h') ∧ MixRep h' l (ns ++ ns') (ms ++ ms') := by
  have hlen := r.rep.length_eq
  have hlen' := ro.rep.length_eq
  simp only [List.length_map] at hlen hlen'
  obtain ⟨h0, e0, r0, _, _, _, _, s0, _⟩ := extend_spec (k := .ll) (by decide) 0 r.rep ro.rep hd hlo
  have hx0 : ∀ a, (h0.node a).ext = (h.node a).ext := fun a => (s0 a).2
  have hcl : ∀ {h' : Heap V Bool}, (∀ a, (h'.node a).ext = (h.node a).ext) →
      (ns ++ ns').map (fun a => (h'.node a).ext) = (ms ++ ms').map (·.2) := by
    intro h' hh
    simp only [hh, List.map_append, r.cls, ro.cls]
  by_cases hm' : ms' = []
  · subst hm'
    have hn' : ns' = [] := List.eq_nil_of_length_eq_zero (by simpa using hlen')
    subst hn'
    have hl : (h.lobj o).length = 0 := by rw [ro.rep.len]; rfl
    rw [if_neg (by simp)]
    exact ⟨h, by simp [xExtend, run_bind, hl], by simpa using r⟩
  have hlo0 : (h.lobj o).length ≠ 0 := by
    rw [ro.rep.len, hlen']; exact fun e => hm' (List.eq_nil_of_length_eq_zero e)
  by_cases hm : ms = []
  · subst hm
    have hn : ns = [] := List.eq_nil_of_length_eq_zero (by simpa using hlen)
    subst hn
    have hl : (h.lobj l).length = 0 := by rw [r.rep.len]; rfl
    rw [if_neg (by simp)]
    refine ⟨h0, ?_, by simpa using r0, hcl hx0, by simpa using ro.mono⟩
    rw [← e0]
    simp [xExtend, extend, run_bind, hl, hlo0]
  have hl0 : (h.lobj l).length ≠ 0 := by
    rw [r.rep.len, hlen]; exact fun e => hm (List.eq_nil_of_length_eq_zero e)
  obtain ⟨as, p, rfl⟩ : ∃ as p, ns = as ++ [p] :=
    ⟨_, _, (List.dropLast_concat_getLast (by rintro rfl; simp at hlen; exact hm (List.eq_nil_of_length_eq_zero hlen.symm))).symm⟩
  obtain ⟨ys, y, rfl⟩ : ∃ ys y, ms = ys ++ [y] := ⟨_, _, (List.dropLast_concat_getLast hm).symm⟩
  obtain ⟨z, zs, rfl⟩ := List.exists_cons_of_ne_nil hm'
  obtain ⟨q, qs, rfl⟩ := List.exists_cons_of_ne_nil (l := ns') (by rintro rfl; simp at hlen')
  have hp : (h.node p).ext = y.2 := by
    have := r.cls
    simp only [List.map_append, List.map_cons, List.map_nil] at this
    simpa using (List.append_inj' this rfl).2
  have hq : (h.node q).ext = z.2 := by
    have := ro.cls
    simp only [List.map_cons, List.cons.injEq] at this
    exact this.1
  have hoh := ro.rep.head (by simp)
  simp only [List.head?_cons] at hoh
  have hll : (h.lobj l).length = (as ++ [p]).length := r.rep.len
  obtain ⟨c, e1, _⟩ := getNode_spec (as := as ++ [p]) (bs := []) (by simpa using r.rep)
  simp only [List.getLast?_append, List.getLast?_singleton, Option.some_or] at e1
  have run : xExtend l o h = (setNextX p (some q) >>= fun _ =>
      setLength l ((h.lobj l).length + (h.lobj o).length)) h := by
    simp only [xExtend, run_bind, run_getList, hlo0, hl0, if_false, hoh]
    rw [hll, e1]
    simp only [run_deref_some]
  have run0 : extend .ll 0 l o h = (setNextRaw p (some q) >>= fun _ =>
      setLength l ((h.lobj l).length + (h.lobj o).length)) h := by
    simp only [extend, run_bind, run_getList, hlo0, hl0, if_false, hoh]
    rw [hll, e1]
    simp only [run_deref_some, setNext]
  simp only [List.getLast?_append, List.getLast?_singleton, Option.some_or, Option.map_some,
    Option.getD_some, List.head?_cons]
  by_cases hc : y.2 = true ∧ z.2 = false
  · rw [if_pos hc, run]
    simp [run_bind, setNextX, isDoubly, hp, hq, hc]
  · rw [if_neg hc]
    have hok : (h.node p).ext = true → ∀ c, some q = some c → (h.node c).ext = true := by
      rintro h1 c ⟨⟩
      rw [hq]
      rw [hp] at h1
      cases hz : z.2 with
      | true => rfl
      | false => exact absurd ⟨h1, hz⟩ hc
    obtain ⟨h1, e1', b1⟩ := setNextX_ok hok
    have hb := b1.setList l { h.lobj l with length := (h.lobj l).length + (h.lobj o).length }
    rw [run0] at e0
    simp only [run_bind, run_setNextRaw, run_setLength, setNode_lobj, Prod.mk.injEq, true_and] at e0
    rw [e0] at hb
    refine ⟨_, ?_, by simpa using r0.blind hb, hcl (fun a => (hb.ext a).trans (hx0 a)), ?_⟩
    · rw [run]
      simp only [run_bind, e1', run_setLength]
      rw [b1.lobj]
      rfl
    · have hm1 := r.mono
      have hm2 := ro.mono
      rw [List.pairwise_append]
      refine ⟨hm1, hm2, fun a ha b hb' ha2 => ?_⟩
      have hy : y.2 = true := by
        rw [List.pairwise_append] at hm1
        rcases List.mem_append.1 ha with h3 | h3
        · exact hm1.2.2 a h3 y (by simp) ha2
        · simp only [List.mem_singleton] at h3; rw [← h3]; exact ha2
      have hz : z.2 = true := by
        cases hz : z.2 with
        | true => rfl
        | false => exact absurd ⟨hy, hz⟩ hc
      rcases List.mem_cons.1 hb' with rfl | hb'
      · exact hz
      · exact (List.pairwise_cons.1 hm2).1 b hb' hz

/-! ## Circular chains in a `LinkedList()` -/

/-- the `LinkedList()` at `l` has the items `xs` in the nodes `ns`, and the last node points back at
one of them -/
structure Looped {X : Type} (h : Heap V X) (l : Addr) (ns : List Addr) (xs : List V) (e : Addr) :
    Prop where
  len : (h.lobj l).length = ns.length
  head : (h.lobj l).head = ns.head?
  src : Src h ns xs (some e)
  mem : e ∈ ns

theorem searchLoop_looped {X : Type} [Inhabited X] {h : Heap V X} {v : V} {e : Addr} :
    ∀ (bs : List Addr) {zs : List V} {fuel : Nat}, Src h bs zs (some e) → v ∈ zs →
      bs.length ≤ fuel →
      ∃ a, searchLoop v fuel bs.head? h = (.ok (some a), h) ∧ (h.node a).data = some v
  | [], zs, fuel, s, hv, _ => by
    have := s.length_eq
    rw [List.eq_nil_of_length_eq_zero this.symm] at hv; cases hv
  | b :: bs, zs, fuel, s, hv, hf => by
    obtain ⟨z, zs, rfl⟩ : ∃ z zs', zs = z :: zs' := by
      cases zs with
      | nil => cases hv
      | cons z zs => exact ⟨z, zs, rfl⟩
    obtain ⟨d, nx, _, s'⟩ := s.uncons
    obtain ⟨fuel, rfl⟩ : ∃ f, fuel = f + 1 := ⟨fuel - 1, by simp at hf; omega⟩
    obtain ⟨c, hc⟩ : ∃ c, (h.node b).next = some c := by
      rw [nx]; cases bs with
      | nil => exact ⟨e, rfl⟩
      | cons c cs => exact ⟨c, rfl⟩
    by_cases hz : z = v
    · refine ⟨b, ?_, by rw [d, hz]⟩
      simp [searchLoop, run_bind, hc, d, hz]
    · have hv' : v ∈ zs := by
        rcases List.mem_cons.1 hv with h1 | h1
        · exact absurd h1.symm hz
        · exact h1
      have hbs : bs ≠ [] := by
        rintro rfl
        rw [List.eq_nil_of_length_eq_zero s'.length_eq.symm] at hv'; cases hv'
      obtain ⟨a, ea, da⟩ := searchLoop_looped bs (fuel := fuel) s' hv' (by simpa using hf)
      refine ⟨a, ?_, da⟩
      have : (h.node b).next = bs.head? := by
        rw [nx]; cases bs with
        | nil => exact absurd rfl hbs
        | cons c cs => rfl
      rw [← this, hc] at ea
      simp [searchLoop, run_bind, hc, d, hz, ea]

theorem Looped.found {X : Type} [Inhabited X] {h : Heap V X} {l : Addr} {ns : List Addr}
    {xs : List V} {e : Addr} (L : Looped h l ns xs e) {v : V} (hv : v ∈ xs) {fuel : Nat}
    (hf : xs.length ≤ fuel) : contains .ll fuel l (some v) h = (.ok true, h) := by
  obtain ⟨a, ea, da⟩ := searchLoop_looped ns (fuel := fuel) L.src hv (by rw [L.src.length_eq]; exact hf)
  have h0 : (h.lobj l).length ≠ 0 := by
    rw [L.len]; exact fun h1 => by
      have := L.mem; rw [List.eq_nil_of_length_eq_zero h1] at this; cases this
  rw [← L.head] at ea
  simp [contains, run_bind, h0, ea, da]

theorem Looped.missing {X : Type} [Inhabited X] {h : Heap V X} {l : Addr} {ns : List Addr}
    {xs : List V} {e : Addr} (L : Looped h l ns xs e) {v : V} (hv : v ∉ xs) (fuel : Nat) :
    contains .ll fuel l (some v) h = (.error .diverge, h) := by
  have h0 : (h.lobj l).length ≠ 0 := by
    rw [L.len]; exact fun h1 => by
      have := L.mem; rw [List.eq_nil_of_length_eq_zero h1] at this; cases this
  have hS : ∀ a, a ∈ ns → (h.node a).data ≠ some v ∧ ∃ b, (h.node a).next = some b ∧ b ∈ ns := by
    intro a ha
    constructor
    · intro hd
      have : (h.node a).data ∈ ns.map (fun a => (h.node a).data) := List.mem_map_of_mem ha
      rw [L.src.data, hd] at this
      obtain ⟨w, hw, e'⟩ := List.mem_map.1 this
      cases e'
      exact hv hw
    · rcases L.src.links.next_mem a ha with ⟨b, hb, h1⟩ | ⟨h1, _⟩
      · exact ⟨b, h1, hb⟩
      · exact ⟨e, h1, L.mem⟩
  obtain ⟨a, as, rfl⟩ := List.exists_cons_of_ne_nil (List.ne_nil_of_mem L.mem)
  have hh := L.head
  simp only [List.head?_cons] at hh
  have := searchLoop_diverges (v := v) (S := (· ∈ a :: as)) hS fuel a (by simp)
  simp only [contains, run_bind, run_getList, h0, if_false, hh, this]

theorem Looped.toList {X : Type} [Inhabited X] {h : Heap V X} {l : Addr} {ns : List Addr}
    {xs : List V} {e : Addr} (L : Looped h l ns xs e) :
    Extra.toList l h = (.ok (xs.map some), h) := by
  simp only [Extra.toList, run_bind, run_getList, L.len]
  exact iterLoop_spec ns L.src (fun _ => L.head)

/-- `LinkedList(cll)` -/
theorem initAlias_looped {X : Type} [Inhabited X] {h : Heap V X} {c : Addr} {ns : List Addr}
    {xs : List V} (r : Rep .cll h c ns xs) (hne : xs ≠ []) :
    ∃ h' e, initAlias .ll c h = (.ok h.nLists, h') ∧ Looped h' h.nLists ns xs e := by
  have hlen := r.length_eq
  obtain ⟨h', e, hN, n1, n2, hd, hl, hL⟩ := initAlias_ll h c r.lbound
  obtain ⟨a, as, rfl⟩ := List.exists_cons_of_ne_nil (l := ns) (by
    rintro rfl; exact hne (List.eq_nil_of_length_eq_zero hlen.symm))
  refine ⟨h', a, e, by rw [hl]; exact r.len, by rw [hd]; exact r.head (by simp), ?_, by simp⟩
  have s := r.src
  exact s.frame (h' := h') (S := fun _ => False) (L := (fun x => ¬ x < h.nLists))
    ⟨fun a _ _ => by rw [hN], fun x _ hx => by
      have : x < h.nLists := by simpa using hx
      exact hL x this,
      by omega, by omega⟩ (by simp)

/-- `ll.extend(cll)` -/
theorem xExtend_looped {h : Heap V Bool} {l c : Addr} {ns ns' : List Addr} {xs ys : List V}
    (r : Rep .ll h l ns xs) (hx : ∀ a ∈ ns, (h.node a).ext = false) (rc : Rep .cll h c ns' ys)
    (hd : ∀ a ∈ ns, a ∉ ns') (hne : ys ≠ []) :
    ∃ h' e, xExtend l c h = (.ok (), h') ∧ Looped h' l (ns ++ ns') (xs ++ ys) e := by
  have hlen := r.length_eq
  have hlen' := rc.length_eq
  obtain ⟨q, qs, rfl⟩ := List.exists_cons_of_ne_nil (l := ns') (by
    rintro rfl; exact hne (List.eq_nil_of_length_eq_zero hlen'.symm))
  have hc0 : (h.lobj c).length ≠ 0 := by rw [rc.len]; simp
  have hch := rc.head (by simp)
  simp only [List.head?_cons] at hch
  have hbd : ∀ a ∈ ns ++ q :: qs, a < h.nNodes := fun a ha => by
    rcases List.mem_append.1 ha with h1 | h1
    · exact r.bound a h1
    · exact rc.bound a h1
  have hnm : ∀ x ∈ xs ++ ys, PyData.norm x = x := fun a ha => by
    rcases List.mem_append.1 ha with h1 | h1
    · exact r.normed a h1
    · exact rc.normed a h1
  have hlk := rc.links
  have hend : endOf .cll (q :: qs) = some q := rfl
  rw [hend] at hlk
  by_cases hn : ns = []
  · subst hn
    have hxs : xs = [] := List.eq_nil_of_length_eq_zero (by simpa using hlen.symm)
    subst hxs
    have hl : (h.lobj l).length = 0 := by rw [r.len]; rfl
    refine ⟨(h.setList l { h.lobj l with head := some q }).setList l
      { ((h.setList l { h.lobj l with head := some q }).lobj l) with
        length := (h.lobj c).length }, q, ?_, ?_, ?_, ?_, by simp⟩
    · simp [xExtend, run_bind, hl, hc0, hch]
    · simp [rc.len]
    · simp
    · exact ⟨Lnk.congr (h := h) (ns := q :: qs) (fun _ _ => rfl) hlk, rc.data, rc.normed, rc.bound⟩
  · obtain ⟨as, p, rfl⟩ : ∃ as p, ns = as ++ [p] :=
      ⟨_, _, (List.dropLast_concat_getLast hn).symm⟩
    have hl0 : (h.lobj l).length ≠ 0 := by rw [r.len]; simp
    have hll : (h.lobj l).length = (as ++ [p]).length := r.len
    obtain ⟨cc, e1, _⟩ := getNode_spec (as := as ++ [p]) (bs := []) (by simpa using r)
    simp only [List.getLast?_append, List.getLast?_singleton, Option.some_or] at e1
    have hp : (h.node p).ext = false := hx p (by simp)
    have hpq : p ∉ q :: qs := hd p (by simp)
    have hpa : p ∉ as := by
      have := r.nodup
      rw [List.nodup_append] at this
      exact fun hm => this.2.2 p hm p (by simp) rfl
    let h1 := h.setNode p { h.node p with next := some q }
    have hn1 : ∀ a, a ≠ p → h1.node a = h.node a := fun a ha => by simp [h1, upd, ha]
    have hd1 : ∀ a, (h1.node a).data = (h.node a).data := fun a => by
      by_cases e : a = p <;> simp [h1, upd, e]
    refine ⟨h1.setList l { h.lobj l with length := (h.lobj l).length + (h.lobj c).length }, q,
      ?_, ?_, ?_, ⟨?_, ?_, hnm, hbd⟩, by simp⟩
    · simp only [xExtend, run_bind, run_getList, hc0, hl0, if_false, hch]
      rw [hll, e1]
      simp only [run_deref_some, setNextX_plain hp, run_setNextRaw, run_setLength]
      rfl
    · simp [hll, rc.len]; omega
    · have := r.head (by simp)
      simp only [setList_lobj, upd_same, this]
      cases as <;> simp
    · rw [Lnk_append]
      have hlr := r.links
      simp only [endOf] at hlr
      rw [Lnk_append] at hlr ⊢
      refine ⟨⟨?_, ?_⟩, ?_⟩
      · refine Lnk.congr (h := h) (fun a ha => ?_) (by simpa using hlr.1)
        show (h1.node a).next = _
        rw [hn1 a (fun e => hpa (e ▸ ha))]
      · simp [Lnk, h1]
      · refine Lnk.congr (h := h) (fun a ha => ?_) hlk
        show (h1.node a).next = _
        rw [hn1 a (fun e => hpq (e ▸ ha))]
    · have h5 := r.data
      have h6 := rc.data
      show (as ++ [p] ++ q :: qs).map (fun a => (h1.node a).data) = _
      simp only [hd1]
      rw [List.map_append, h5, h6, List.map_append]

end Extra
