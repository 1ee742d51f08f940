import Verif.Lists.Slice

/-! # Contracts of the reading methods and of the rotations -/

set_option linter.unusedSectionVars false
set_option linter.unusedSimpArgs false
attribute [local irreducible] Extra.upd

namespace Extra
variable {V X : Type} [PyData V] [Inhabited X]

theorem Src.cons_inv {h : Heap V X} {b : Addr} {bs : List Addr} {zs : List V} {e : Option Addr}
    (s : Src h (b :: bs) zs e) : ∃ z zs', zs = z :: zs' := by
  cases zs with
  | nil => have := s.length_eq; simp at this
  | cons z zs => exact ⟨z, zs, rfl⟩

/-! ## iteration -/

theorem iterLoop_spec {e : Option Addr} {h : Heap V X} : ∀ (bs : List Addr) {zs : List V}
    {curr : Option Addr}, Src h bs zs e → (bs ≠ [] → curr = bs.head?) →
    iterLoop bs.length curr h = (.ok (zs.map some), h)
  | [], zs, curr, s, _ => by
    have : zs = [] := List.eq_nil_of_length_eq_zero s.length_eq.symm
    subst this
    rfl
  | b :: bs, zs, curr, s, hc => by
    obtain ⟨z, zs, rfl⟩ := s.cons_inv
    have hc := hc (by simp)
    simp only [List.head?_cons] at hc
    subst hc
    obtain ⟨d, nx, _, s'⟩ := s.uncons
    have ih := iterLoop_spec bs (curr := (h.node b).next) s'
      (by intro hne; rw [nx]; cases bs <;> simp_all)
    simp only [List.length_cons, iterLoop, run_bind, run_getData, run_getNext, ih, run_pure, d,
      List.map_cons]

theorem toList_spec {k : Kind} {h : Heap V X} {l : Addr} {ns : List Addr} {xs : List V}
    (r : Rep k h l ns xs) : toList l h = (.ok (xs.map some), h) := by
  simp only [toList, run_bind, run_getList, r.len]
  exact iterLoop_spec ns r.src r.head

theorem llLen_spec {k : Kind} {h : Heap V X} {l : Addr} {ns : List Addr} {xs : List V}
    (r : Rep k h l ns xs) : llLen l h = (.ok xs.length, h) := by
  simp [llLen, run_bind, r.len, r.length_eq]

theorem isEmpty_spec {k : Kind} {h : Heap V X} {l : Addr} {ns : List Addr} {xs : List V}
    (r : Rep k h l ns xs) : isEmpty l h = (.ok (decide (xs = [])), h) := by
  simp only [isEmpty, run_bind, run_getList, run_pure, r.len, r.length_eq]
  cases xs <;> simp

theorem count_spec {k : Kind} {h : Heap V X} {l : Addr} {ns : List Addr} {xs : List V}
    (r : Rep k h l ns xs) (v : Option V) :
    count l v h = (.ok ((xs.map some).count v), h) := by
  simp only [count, run_bind, toList_spec r, run_pure]
  rw [List.count_eq_length_filter]
  simp only [Prod.mk.injEq, Except.ok.injEq, and_true]
  congr 1
  apply List.filter_congr
  intro x _
  rw [Bool.eq_iff_iff]; simp

/-! ## membership -/

theorem searchLoop_spec {h : Heap V X} (v : V) : ∀ (bs : List Addr) {zs : List V} {fuel : Nat},
    Src h bs zs none → bs ≠ [] → bs.length ≤ fuel →
    ∃ a z, searchLoop v fuel bs.head? h = (.ok (some a), h) ∧ (h.node a).data = some z ∧
      (z = v ↔ v ∈ zs)
  | [], zs, fuel, s, hne, _ => absurd rfl hne
  | b :: bs, zs, fuel, s, _, hf => by
    obtain ⟨z, zs, rfl⟩ := s.cons_inv
    obtain ⟨d, nx, _, s'⟩ := s.uncons
    obtain ⟨f, rfl⟩ : ∃ f, fuel = f + 1 := ⟨fuel - 1, by simp at hf; omega⟩
    cases bs with
    | nil =>
      have : zs = [] := List.eq_nil_of_length_eq_zero s'.length_eq.symm
      subst this
      refine ⟨b, z, ?_, d, by simp [eq_comm]⟩
      simp at nx
      simp only [List.head?_cons, searchLoop, run_bind, run_getNext, nx, run_pure]
    | cons b' bs =>
      simp only [List.head?_cons, Option.some_or] at nx
      by_cases hz : z = v
      · refine ⟨b, z, ?_, d, by simp [hz]⟩
        simp only [List.head?_cons, searchLoop, run_bind, run_getNext, nx, run_getData, d, hz,
          if_true, run_pure]
      · obtain ⟨a, y, e1, d1, i1⟩ := searchLoop_spec v (b' :: bs) (fuel := f) s' (by simp)
          (by simp at hf ⊢; omega)
        refine ⟨a, y, ?_, d1, by rw [i1]; simp [Ne.symm hz]⟩
        simp only [List.head?_cons, searchLoop, run_bind, run_getNext, nx, run_getData, d,
          Option.some.injEq, hz, if_false]
        exact e1

theorem anyLoop_spec {e : Option Addr} {h : Heap V X} (v : Option V) : ∀ (bs : List Addr)
    {zs : List V} {curr : Option Addr}, Src h bs zs e → (bs ≠ [] → curr = bs.head?) →
    anyLoop v bs.length curr h = (.ok (decide (v ∈ zs.map some)), h)
  | [], zs, curr, s, _ => by
    have : zs = [] := List.eq_nil_of_length_eq_zero s.length_eq.symm
    subst this
    simp [anyLoop]
  | b :: bs, zs, curr, s, hc => by
    obtain ⟨z, zs, rfl⟩ := s.cons_inv
    have hc := hc (by simp)
    simp only [List.head?_cons] at hc
    subst hc
    obtain ⟨d, nx, _, s'⟩ := s.uncons
    have ih := anyLoop_spec v bs (curr := (h.node b).next) s'
      (by intro hne; rw [nx]; cases bs <;> simp_all)
    simp only [List.length_cons, anyLoop, run_bind, run_getData, run_getNext, d]
    by_cases hv : some z = v
    · subst hv; simp
    · simp only [hv, if_false, run_bind, run_getNext, ih, List.map_cons, List.mem_cons,
        Ne.symm hv, false_or]

theorem contains_spec {k : Kind} {h : Heap V X} {l : Addr} {ns : List Addr} {xs : List V}
    (r : Rep k h l ns xs) {fuel : Nat} (hf : xs.length ≤ fuel) (v : Option V) :
    contains k fuel l v h = (.ok (decide (v ∈ xs.map some)), h) := by
  cases hk : k with
  | cll =>
    subst hk
    simp only [contains, run_bind, run_getList, r.len]
    exact anyLoop_spec v ns r.src r.head
  | ll | dll =>
    subst hk
    cases v with
    | none => simp [contains]
    | some v =>
      by_cases h0 : ns = []
      · subst h0
        have hl := r.len
        have := r.length_eq
        simp at hl this
        simp [contains, run_bind, hl, List.eq_nil_of_length_eq_zero this.symm]
      · have hl : (h.lobj l).length ≠ 0 := by
          rw [r.len]; exact fun e => h0 (List.eq_nil_of_length_eq_zero e)
        obtain ⟨a, z, e1, d1, i1⟩ := searchLoop_spec v ns (fuel := fuel) (by simpa [endOf] using r.src)
          h0 (by rw [r.length_eq]; exact hf)
        simp [contains, run_bind, hl, r.head h0, e1, d1, i1]

/-! ## indexing -/

theorem getNode_data {k : Kind} {h : Heap V X} {l : Addr} {ns : List Addr} {xs : List V}
    (r : Rep k h l ns xs) {i : Nat} (hi : i < xs.length) :
    ∃ p a, getNode k l i h = (.ok (p, some a), h) ∧ (h.node a).data = some xs[i] := by
  obtain ⟨as, bs, rfl, ha⟩ := split_at_len ns (i := i) (by rw [r.length_eq]; omega)
  have hlen := r.length_eq
  simp only [List.length_append] at hlen
  obtain ⟨b, bs, rfl⟩ := List.exists_cons_of_ne_nil (l := bs) (by rintro rfl; simp at hlen; omega)
  obtain ⟨c, e1, hc⟩ := getNode_spec r
  have hc := hc (by simp)
  simp only [List.head?_cons, Option.some_or] at hc
  subst hc
  refine ⟨_, b, by rw [← ha]; exact e1, ?_⟩
  have hd := congrArg (·[i]?) r.data
  subst ha
  rw [List.getElem?_map, List.getElem?_map, List.getElem?_eq_getElem hi] at hd
  simpa using hd

/-- a valid integer index, as a position -/
theorem getItem_ok {k : Kind} {h : Heap V X} {l : Addr} {ns : List Addr} {xs : List V}
    (r : Rep k h l ns xs) {i : Int} {j : Nat} (hj : j < xs.length)
    (hij : match k with
      | .cll => 0 ≤ i ∧ j = i.toNat % xs.length
      | _ => (0 ≤ i ∧ (j : Int) = i) ∨ (i < 0 ∧ (j : Int) = i + xs.length)) :
    getItem k l (.int i) h = (.ok (some xs[j]), h) := by
  have hl : (h.lobj l).length = xs.length := by rw [r.len, r.length_eq]
  obtain ⟨p, a, e1, d1⟩ := getNode_data r hj
  cases hk : k with
  | cll =>
    subst hk
    obtain ⟨h0, rfl⟩ := hij
    have hne : xs.length ≠ 0 := by omega
    have : ¬ i ≤ -1 := by omega
    simp only [getItem, validateIndex, this, false_and, if_false, run_bind, run_pure, run_getList,
      hl, hne, Idx.mod, Idx.toNat, ne_eq, not_false_eq_true, if_true, e1, run_getData, d1]
  | ll | dll =>
    subst hk
    have h1 : ¬ (i < -(xs.length : Int) ∨ i > (xs.length : Int)) := by omega
    have h2 : i ≠ (xs.length : Int) := by omega
    have h3 : (if i ≤ -1 then i + (xs.length : Int) else i).toNat = j := by
      split <;> omega
    simp only [getItem, validateIndex, Bool.true_eq_false, and_false, if_false, run_bind, run_pure,
      run_getList, hl, h1, h2, h3, e1, run_getData, d1]

/-! ## rotation -/

theorem Own.mem_of_ne {k : Kind} (hk : k ≠ .cll) {h : Heap V X} {l : Addr} {ns : List Addr}
    {a : Addr} (ha : Own k h l ns a) : a ∈ ns := by
  rcases ha with ha | ⟨h1, _⟩
  · exact ha
  · exact absurd h1 hk

theorem split_spec {k : Kind} {h : Heap V X} {l : Addr} {ns : List Addr} {xs : List V}
    (r : Rep k h l ns xs) {i : Nat} (hi : k ≠ .cll → i ≤ xs.length) {j : Nat}
    (hj : j = if k = .cll then (if xs.length = 0 then 0 else i % xs.length) else i) :
    ∃ h' l1 l2 ns1 ns2, split k l (.int i) h = (.ok (l1, l2), h') ∧ l1 ≠ l2 ∧
      Built k h h' l1 ns1 (xs.take j) ∧ Built k h h' l2 ns2 (xs.drop j) ∧
      (∀ a, Own k h' l1 ns1 a → ¬ Own k h' l2 ns2 a) := by
  have hl : (h.lobj l).length = xs.length := by rw [r.len, r.length_eq]
  have hjl : j ≤ xs.length := by
    by_cases hk : k = .cll
    · rw [hj, if_pos hk]
      split
      · omega
      · exact Nat.le_of_lt (Nat.mod_lt _ (by omega))
    · rw [hj, if_neg hk]; exact hi hk
  obtain ⟨h', l1, l2, ns1, ns2, e1, rest⟩ := splitAt_spec r hjl
  refine ⟨h', l1, l2, ns1, ns2, ?_, rest⟩
  have h0 : ¬ ((i : Int) ≤ -1) := by omega
  cases k with
  | cll =>
    simp only [if_true] at hj
    have : (Idx.int (i : Int)).mod xs.length = j := by
      rw [hj]; simp only [Idx.mod, Idx.toNat, Int.toNat_natCast]; split <;> simp_all
    simp only [split, validateIndex, h0, false_and, if_false, run_bind, run_pure, run_getList, hl,
      this, e1]
  | ll | dll =>
    simp at hj hi
    subst hj
    have h1 : ¬ ((j : Int) < -(xs.length : Int) ∨ (j : Int) > (xs.length : Int)) := by omega
    simp only [split, validateIndex, h0, false_and, if_false, run_bind, run_pure, run_getList, hl,
      h1, Idx.toNat, Int.toNat_natCast, e1]

/-- what `_rotate` gives -/
def rotated (xs : List V) (d : Nat) : Dir → List V
  | .left => xs.rotateLeft d
  | .right => xs.rotateRight d

theorem rotated_eq (xs : List V) (d : Nat) (dir : Dir) :
    rotated xs d dir =
      xs.drop (calibrate xs.length d dir) ++ xs.take (calibrate xs.length d dir) := by
  have h2 : xs.length ≤ 1 → ∀ i, xs.drop i ++ xs.take i = xs := by
    intro hx i
    match xs, hx with
    | [], _ => simp
    | [x], _ => cases i <;> simp
  cases dir with
  | left =>
    simp only [rotated, List.rotateLeft]
    by_cases hx : xs.length ≤ 1
    · simp only [hx, if_true, h2 hx]
    · have : xs.length > 0 := by omega
      simp only [hx, if_false, calibrate, this, if_true]
  | right =>
    simp only [rotated, List.rotateRight]
    by_cases hx : xs.length ≤ 1
    · simp only [hx, if_true, h2 hx]
    · have : xs.length > 0 := by omega
      simp only [hx, if_false, calibrate, this, if_true]

theorem calibrate_le (n d : Nat) (dir : Dir) : calibrate n d dir ≤ n := by
  cases dir <;> simp only [calibrate]
  · split
    · exact Nat.le_of_lt (Nat.mod_lt _ (by omega))
    · omega
  · omega

theorem rotate_spec {k : Kind} {h : Heap V X} {l : Addr} {ns : List Addr} {xs : List V}
    (r : Rep k h l ns xs) {fuel : Nat} (hf : xs.length < fuel) (d : Nat) (dir : Dir) :
    ∃ h' l' ns', rotate k fuel l d dir h = (.ok l', h') ∧
      Built k h h' l' ns' (rotated xs d dir) := by
  have hl : (h.lobj l).length = xs.length := by rw [r.len, r.length_eq]
  have hcl := calibrate_le xs.length d dir
  generalize hj : (if k = .cll then
    (if xs.length = 0 then 0 else calibrate xs.length d dir % xs.length)
    else calibrate xs.length d dir) = j
  obtain ⟨h1, l1, l2, ns1, ns2, e1, hne, b1, b2, hd⟩ :=
    split_spec r (i := calibrate xs.length d dir) (fun _ => hcl) hj.symm
  have hrot : xs.drop j ++ xs.take j = rotated xs d dir := by
    rw [rotated_eq, ← hj]
    split
    · split
      · rename_i h0
        rw [List.eq_nil_of_length_eq_zero h0]; simp
      · rename_i h0
        by_cases hx : calibrate xs.length d dir = xs.length
        · rw [hx]; simp
        · rw [Nat.mod_eq_of_lt (by omega)]
    · rfl
  by_cases hk : k = .cll
  · subst hk
    obtain ⟨h2, ns', e2, r2, m2, _⟩ := extendCLL_spec (fuel := fuel)
      (by simp only [List.length_take]; omega) b2.rep b1.rep (fun a ha => hd a (Or.inl ha))
      (Ne.symm hne)
    refine ⟨h2, l2, ns', ?_, by rw [← hrot]; exact b2.mut m2 r2⟩
    simp only [rotate, run_bind, run_getList, hl, e1, e2, run_pure]
  · obtain ⟨h2, e2, r2, f2, n2, n2', _⟩ := extend_spec hk fuel b2.rep b1.rep
      (fun a ha hx => hd a (Or.inl hx) (Or.inl ha)) (Ne.symm hne)
    refine ⟨h2, l2, ns2 ++ ns1, ?_, ?_⟩
    · simp only [rotate, run_bind, run_getList, hl, e1, e2, run_pure]
    · rw [← hrot]
      refine ⟨r2, b2.new, ?_, b1.frame.trans f2 ?_ ?_⟩
      · intro a ha
        rcases List.mem_append.1 (ha.mem_of_ne hk) with h3 | h3
        · exact b2.own a (Or.inl h3)
        · exact b1.own a (Or.inl h3)
      · intro a ha h3
        rcases h3 with h3 | h3
        · exact Nat.not_lt.2 (b2.own a (Or.inl h3)) ha
        · exact Nat.not_lt.2 (b1.own a (Or.inl h3)) ha
      · rintro a ha rfl
        exact Nat.not_lt.2 b2.new ha

/-- in-place rotation: the list takes over the nodes of the rotated copy -/
theorem rotateList_inplace {k : Kind} {h : Heap V X} {l : Addr} {ns : List Addr} {xs : List V}
    (r : Rep k h l ns xs) {fuel : Nat} (hf : xs.length < fuel) {d : Int} (hd : 0 ≤ d) (dir : Dir)
    {f : Flag} (hfl : checkInplace k dir f = .ok true) :
    ∃ h' ns', rotateList k fuel l (some d) dir f h = (.ok none, h') ∧
      Rep k h' l ns' (rotated xs d.toNat dir) ∧ Mut k h h' l ns ns' := by
  obtain ⟨h1, l2, ns2, e1, b1⟩ := rotate_spec r hf d.toNat dir
  have hl : (h.lobj l).length = xs.length := by rw [r.len, r.length_eq]
  have hd' : ¬ d < 0 := by omega
  have hlne : l ≠ l2 := by rintro rfl; exact Nat.not_lt.2 b1.new r.lbound
  have hl1 : h1.lobj l = h.lobj l := b1.frame.lobj l r.lbound (by simp)
  obtain ⟨h2, he, hN, hL, n1, n2⟩ : ∃ h2, rotateList k fuel l (some d) dir f h = (.ok none, h2) ∧
      h2.node = h1.node ∧ h2.lobj = upd h1.lobj l ⟨(h1.lobj l2).head,
        if k = .dll then (h1.lobj l2).tail else (h1.lobj l).tail, (h1.lobj l).length⟩ ∧
      h2.nNodes = h1.nNodes ∧ h2.nLists = h1.nLists := by
    refine ⟨⟨h1.node, upd h1.lobj l ⟨(h1.lobj l2).head,
        if k = .dll then (h1.lobj l2).tail else (h1.lobj l).tail, (h1.lobj l).length⟩,
        h1.nNodes, h1.nLists⟩, ?_, rfl, rfl, rfl, rfl⟩
    cases k <;>
      simp [rotateList, run_bind, hfl, hd', e1, Heap.setList, upd_upd]
  have r2 := b1.rep
  have hlen : (rotated xs d.toNat dir).length = xs.length := by
    rw [rotated_eq]
    have := calibrate_le xs.length d.toNat dir
    simp only [List.length_append, List.length_drop, List.length_take]; omega
  refine ⟨h2, ns2, he, ⟨?_, by rw [hN]; exact r2.data, r2.normed, r2.nodup,
    by rw [n1]; exact r2.bound, by rw [n2]; exact Nat.lt_of_lt_of_le r.lbound b1.frame.nLists,
    ?_, ?_, r2.links.congr (fun a _ => by rw [hN]),
    fun hk => (r2.plinks hk).congr (fun a _ => by rw [hN]), ?_⟩, ?_, ?_⟩
  · rw [hL, upd_same]
    show (h1.lobj l).length = _
    rw [hl1, hl, r2.length_eq, hlen]
  · intro hne; rw [hL, upd_same]; exact r2.head hne
  · intro a ha; rw [hL, upd_same] at ha; rw [n1]; exact r2.hbound a ha
  · intro hk hne; rw [hL, upd_same]; simp only [hk, if_true]; exact r2.tail hk hne
  · have g : Frame h1 h2 (Own k h l ns) (· = l) :=
      ⟨fun a _ _ => by rw [hN], fun a _ ha => by rw [hL, upd_ne _ _ ha], by omega, by omega⟩
    exact (b1.frame.mono (fun _ _ => False.elim) (fun _ _ => False.elim)).trans g
      (fun _ _ => id) (fun _ _ => id)
  · intro a ha
    right
    rcases ha with ha | ⟨hk, ha⟩
    · exact b1.own a (Or.inl ha)
    · rw [hL, upd_same] at ha; exact b1.own a (Or.inr ⟨hk, ha⟩)

theorem rotateList_new {k : Kind} {h : Heap V X} {l : Addr} {ns : List Addr} {xs : List V}
    (r : Rep k h l ns xs) {fuel : Nat} (hf : xs.length < fuel) {d : Int} (hd : 0 ≤ d) (dir : Dir)
    {f : Flag} (hfl : checkInplace k dir f = .ok false) :
    ∃ h' l' ns', rotateList k fuel l (some d) dir f h = (.ok (some l'), h') ∧
      Built k h h' l' ns' (rotated xs d.toNat dir) := by
  obtain ⟨h1, l2, ns2, e1, b1⟩ := rotate_spec r hf d.toNat dir
  have hd' : ¬ d < 0 := by omega
  exact ⟨h1, l2, ns2, by simp [rotateList, run_bind, hfl, hd', e1], b1⟩

end Extra
