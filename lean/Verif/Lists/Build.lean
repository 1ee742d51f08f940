import Verif.Lists.Ops

/-! # Contracts of the methods that build new lists -/

set_option linter.unusedSectionVars false
set_option linter.unusedSimpArgs false
attribute [local irreducible] Extra.upd

namespace Extra
variable {V X : Type} [PyData V] [Inhabited X]

/-- a chain of nodes that is being read -/
structure Src (h : Heap V X) (bs : List Addr) (zs : List V) (e : Option Addr) : Prop where
  links : Lnk h bs e
  data : bs.map (fun a => (h.node a).data) = zs.map some
  normed : ∀ z ∈ zs, PyData.norm z = z
  bound : ∀ a ∈ bs, a < h.nNodes

theorem Rep.src {k : Kind} {h : Heap V X} {l : Addr} {ns : List Addr} {xs : List V}
    (r : Rep k h l ns xs) : Src h ns xs (endOf k ns) := ⟨r.links, r.data, r.normed, r.bound⟩

theorem Src.frame {h h' : Heap V X} {bs : List Addr} {zs : List V} {e : Option Addr}
    {S L : Addr → Prop} (s : Src h bs zs e) (f : Frame h h' S L) (hS : ∀ a ∈ bs, ¬ S a) :
    Src h' bs zs e := by
  have hn : ∀ a ∈ bs, h'.node a = h.node a := fun a ha => f.node a (s.bound a ha) (hS a ha)
  exact ⟨s.links.congr (fun a ha => by rw [hn a ha]),
    by rw [← s.data]; exact List.map_congr_left (fun a ha => by rw [hn a ha]), s.normed,
    fun a ha => Nat.lt_of_lt_of_le (s.bound a ha) f.nNodes⟩

theorem Src.uncons {h : Heap V X} {b : Addr} {bs : List Addr} {z : V} {zs : List V}
    {e : Option Addr} (s : Src h (b :: bs) (z :: zs) e) :
    (h.node b).data = some z ∧ (h.node b).next = bs.head?.or e ∧ PyData.norm z = z ∧
      Src h bs zs e := by
  have hd := s.data
  simp only [List.map_cons, List.cons.injEq] at hd
  exact ⟨hd.1, s.links.1, s.normed z (by simp), s.links.2, hd.2,
    fun y hy => s.normed y (by simp [hy]), fun a ha => s.bound a (by simp [ha])⟩

theorem Src.length_eq {h : Heap V X} {bs : List Addr} {zs : List V} {e : Option Addr}
    (s : Src h bs zs e) : bs.length = zs.length := by
  have := congrArg List.length s.data; simpa using this

theorem newList_run (k : Kind) (h : Heap V X) :
    ∃ h', newList h = (.ok h.nLists, h') ∧ Rep k h' h.nLists [] [] ∧
      (∀ a, ¬ Own k h' h.nLists [] a) ∧
      Frame h h' (fun _ => False) (fun _ => False) ∧ h'.nLists = h.nLists + 1 ∧
      h'.nNodes = h.nNodes := by
  obtain ⟨h', he, hN, hL, n1, n2⟩ : ∃ h', (newList : M V X Addr) h = (.ok h.nLists, h') ∧
      h'.node = h.node ∧ h'.lobj = upd h.lobj h.nLists ⟨none, none, 0⟩ ∧
      h'.nNodes = h.nNodes ∧ h'.nLists = h.nLists + 1 :=
    ⟨⟨h.node, upd h.lobj h.nLists ⟨none, none, 0⟩, h.nNodes, h.nLists + 1⟩, rfl, rfl, rfl, rfl, rfl⟩
  exact ⟨h', he, ⟨by simp [hL], by simp, by simp, by simp, by simp, by omega, by simp,
    by simp [hL], trivial, fun _ => trivial, by simp⟩, by simp [Own, hL],
    ⟨fun _ _ _ => by rw [hN], fun l hl _ => by rw [hL, upd_ne _ _ (Nat.ne_of_lt hl)], by omega,
      by omega⟩, n2, n1⟩

/-- the outcome of building a list: `l'` is new, all it owns is new, nothing old changed -/
structure Built (k : Kind) (h h' : Heap V X) (l' : Addr) (ns' : List Addr) (ys : List V) :
    Prop where
  rep : Rep k h' l' ns' ys
  new : h.nLists ≤ l'
  own : ∀ a, Own k h' l' ns' a → h.nNodes ≤ a
  frame : Frame h h' (fun _ => False) (fun _ => False)

theorem Built.mut {k : Kind} {h h1 h' : Heap V X} {l' : Addr} {ns1 ns' : List Addr} {ys1 ys : List V}
    (b : Built k h h1 l' ns1 ys1) (m : Mut k h1 h' l' ns1 ns') (r : Rep k h' l' ns' ys) :
    Built k h h' l' ns' ys := by
  refine ⟨r, b.new, ?_, b.frame.trans m.frame ?_ ?_⟩
  · intro a ha
    rcases m.own a ha with h1 | h1
    · exact b.own a h1
    · exact Nat.le_trans b.frame.nNodes h1
  · intro a ha h2; exact Nat.not_lt.2 (b.own a h2) ha
  · rintro l hl rfl; exact Nat.not_lt.2 b.new hl

theorem newList_built (k : Kind) (h : Heap V X) :
    ∃ h', newList h = (.ok h.nLists, h') ∧ Built k h h' h.nLists [] [] := by
  obtain ⟨h', e, r, o, f, _, _⟩ := newList_run k h
  exact ⟨h', e, r, Nat.le_refl _, fun a ha => absurd ha (o a), f⟩

/-- the copying loop of `_split` and `copy` -/
theorem splitLoop_spec {k : Kind} {out : Addr} (cs : List Addr) (e : Option Addr) :
    ∀ (bs os : List Addr) {h : Heap V X} {ys zs ws : List V} {prev curr : Option Addr},
    Rep k h out os ys → Src h (bs ++ cs) (zs ++ ws) e → bs.length = zs.length →
    (bs ≠ [] → curr = bs.head?) → (prev = os.getLast? ∨ os = []) →
    (∀ a ∈ bs ++ cs, ¬ Own k h out os a) →
    ∃ h' os' p', splitLoop k out bs.length prev curr h =
        (.ok (p', if bs = [] then curr else cs.head?.or e), h') ∧
      Rep k h' out os' (ys ++ zs) ∧ Mut k h h' out os os' ∧ h'.nLists = h.nLists
  | [], os, h, ys, zs, ws, prev, curr, r, s, hl, hc, hp, hd => by
    have : zs = [] := List.eq_nil_of_length_eq_zero hl.symm
    subst this
    exact ⟨h, os, prev, by simp [splitLoop], by simpa using r, Mut.refl _ _ _ _, rfl⟩
  | b :: bs, os, h, ys, zs, ws, prev, curr, r, s, hl, hc, hp, hd => by
    obtain ⟨z, zs, rfl⟩ := List.exists_cons_of_ne_nil (l := zs) (by rintro rfl; simp at hl)
    have hc := hc (by simp)
    simp only [List.head?_cons] at hc
    subst hc
    obtain ⟨d, nx, nz, s'⟩ := Src.uncons s
    obtain ⟨h1, m, os1, e1, r1, m1, g1, l1, c1⟩ :=
      insertValue_spec (prev := prev) (as := os) (bs := []) (ys := ys) (zs := []) z
        (by simpa using r) r.length_eq (by simpa using hp)
    rw [nz] at r1
    rw [List.append_nil] at m1 l1
    have s1 := s.frame m1.frame hd
    have nx1 : (h1.node b).next = (bs ++ cs).head?.or e := by
      rw [m1.frame.node b (s.bound b (by simp)) (hd b (by simp))]; exact nx
    have hlast : os1.getLast? = some m := by
      rw [List.getLast?_eq_getElem?, l1]; simpa using g1
    have hd1 : ∀ a ∈ bs ++ cs, ¬ Own k h1 out os1 a := by
      intro a ha ho
      rcases m1.own a ho with h2 | h2
      · exact hd a (by simp at ha ⊢; exact Or.inr ha) h2
      · exact Nat.not_lt.2 h2 (s'.bound a ha)
    obtain ⟨h2, os2, p2, e2, r2, m2, c2⟩ := splitLoop_spec cs e bs os1 (prev := some m)
      (curr := (h1.node b).next) r1 s1.uncons.2.2.2 (by simpa using hl)
      (by intro hne; rw [nx1]; cases bs <;> simp_all) (Or.inl hlast.symm) hd1
    refine ⟨h2, os2, p2, ?_, by simpa using r2, m1.trans m2, by omega⟩
    simp only [List.length_cons, splitLoop, run_bind, run_getData, d, assertSome, run_pure, e1,
      run_getNext, e2]
    by_cases hb : bs = []
    · subst hb; simp [nx1]
    · simp [hb]

theorem copy_spec {k : Kind} {h : Heap V X} {l : Addr} {ns : List Addr} {xs : List V}
    (r : Rep k h l ns xs) :
    ∃ h' l' ns', copy k l h = (.ok l', h') ∧ Built k h h' l' ns' xs := by
  obtain ⟨h1, e1, b1⟩ := newList_built k h
  have r1 := r.frame b1.frame (by simp) (by simp)
  obtain ⟨h2, os, p, e2, r2, m2, _⟩ := splitLoop_spec [] (endOf k ns) ns [] (ws := []) (ys := [])
    (prev := none) (curr := (h1.lobj l).head) b1.rep (by simpa using r1.src) r.length_eq r1.head
    (Or.inr rfl) (by
      intro a ha ho
      exact Nat.not_lt.2 (b1.own a ho) (r.bound a (by simpa using ha)))
  refine ⟨h2, _, os, ?_, b1.mut m2 (by simpa using r2)⟩
  simp only [copy, run_bind, e1, run_getList, r1.len, e2, run_pure]

theorem Own.frame {k : Kind} {h h' : Heap V X} {l : Addr} {ns : List Addr} {S L : Addr → Prop}
    (f : Frame h h' S L) (hl : l < h.nLists) (hL : ¬ L l) (a : Addr) :
    Own k h' l ns a ↔ Own k h l ns a := by
  rw [Own, Own, f.lobj l hl hL]

/-- a built list survives a step on other objects -/
theorem Built.step {k : Kind} {h h1 h2 : Heap V X} {l' : Addr} {ns' : List Addr} {ys : List V}
    {S L : Addr → Prop} (b : Built k h h1 l' ns' ys) (f : Frame h1 h2 S L)
    (hS : ∀ a ∈ ns', ¬ S a) (hL : ¬ L l') (f' : Frame h h2 (fun _ => False) (fun _ => False)) :
    Built k h h2 l' ns' ys :=
  ⟨b.rep.frame f hS hL, b.new,
    fun a ha => b.own a ((Own.frame f b.rep.lbound hL a).1 ha), f'⟩

/-- building relative to an intermediate heap -/
theorem Built.weaken {k : Kind} {h h0 h' : Heap V X} {l' : Addr} {ns' : List Addr} {ys : List V}
    (b : Built k h0 h' l' ns' ys) (f : Frame h h0 (fun _ => False) (fun _ => False)) :
    Built k h h' l' ns' ys :=
  ⟨b.rep, Nat.le_trans f.nLists b.new, fun a ha => Nat.le_trans f.nNodes (b.own a ha),
    f.trans b.frame (by simp) (by simp)⟩

theorem Rep.nil_of_length {k : Kind} {h : Heap V X} {l : Addr} {ns : List Addr} {xs : List V}
    (r : Rep k h l ns xs) (h0 : (h.lobj l).length = 0) : ns = [] ∧ xs = [] := by
  have h1 := r.len; have h2 := r.length_eq
  exact ⟨List.eq_nil_of_length_eq_zero (by omega), List.eq_nil_of_length_eq_zero (by omega)⟩

theorem splitAt_spec {k : Kind} {h : Heap V X} {l : Addr} {ns : List Addr} {xs : List V}
    (r : Rep k h l ns xs) {i : Nat} (hi : i ≤ xs.length) :
    ∃ h' l1 l2 ns1 ns2, splitAt k l i h = (.ok (l1, l2), h') ∧ l1 ≠ l2 ∧
      Built k h h' l1 ns1 (xs.take i) ∧ Built k h h' l2 ns2 (xs.drop i) ∧
      (∀ a, Own k h' l1 ns1 a → ¬ Own k h' l2 ns2 a) := by
  obtain ⟨h1, e1, r1, o1, f1, n1, n1'⟩ := newList_run k h
  obtain ⟨h2, e2, r2, o2, f2, n2, n2'⟩ := newList_run k h1
  have f12 := f1.trans f2 (by simp) (by simp)
  have rr := r.frame f12 (by simp) (by simp)
  have r1' := r1.frame f2 (by simp) (by simp)
  have o1' : ∀ a, ¬ Own k h2 h.nLists [] a := fun a ha =>
    o1 a ((Own.frame f2 (by omega) (by simp) a).1 ha)
  have hne : h.nLists ≠ h1.nLists := by omega
  by_cases h0 : (h2.lobj l).length = 0
  · obtain ⟨rfl, rfl⟩ := rr.nil_of_length h0
    refine ⟨h2, _, _, [], [], ?_, hne,
      ⟨by simpa using r1', Nat.le_refl _, fun a ha => absurd ha (o1' a), f12⟩,
      ⟨by simpa using r2, by omega, fun a ha => absurd ha (o2 a), f12⟩,
      fun a ha => absurd ha (o1' a)⟩
    simp only [splitAt, run_bind, e1, e2, run_getList, h0, if_true, run_pure]
  · obtain ⟨as, bs, rfl, ha⟩ := split_at_len ns (i := i) (by rw [r.length_eq]; exact hi)
    obtain ⟨ys, zs, rfl, hy⟩ := split_at_len xs hi
    have hlen := r.length_eq
    simp only [List.length_append] at hlen
    obtain ⟨h3, os1, p, e3, r3, m3, n3⟩ := splitLoop_spec bs (endOf k (as ++ bs)) as [] (ys := [])
      (zs := ys) (ws := zs) (prev := none) (curr := (h2.lobj l).head) r1' rr.src (by omega)
      (by intro hne; rw [rr.head (by simp [hne])]; cases as <;> simp_all) (Or.inr rfl)
      (fun a _ => o1' a)
    have f3 : Frame h2 h3 (fun _ => False) (· = h.nLists) :=
      m3.frame.mono (fun a _ ha => o1' a ha) (fun _ _ => id)
    have r2' := r2.frame f3 (by simp) (fun e => hne e.symm)
    have o2' : ∀ a, ¬ Own k h3 h1.nLists [] a := fun a ha =>
      o2 a ((Own.frame f3 (by omega) (fun e => hne e.symm) a).1 ha)
    have s3 : Src h3 bs zs (endOf k (as ++ bs)) := by
      have := rr.src.frame f3 (by simp)
      refine ⟨(Lnk_append.1 this.links).2, ?_, fun z hz => this.normed z (by simp [hz]),
        fun a ha => this.bound a (by simp [ha])⟩
      have hd := this.data
      rw [List.map_append, List.map_append] at hd
      exact (List.append_inj hd (by simp; omega)).2
    have hcurr : bs ≠ [] →
        (if as = [] then (h2.lobj l).head else bs.head?.or (endOf k (as ++ bs))) = bs.head? := by
      intro hb
      by_cases has : as = []
      · subst has; simpa using rr.head (by simpa using hb)
      · obtain ⟨b, bs, rfl⟩ := List.exists_cons_of_ne_nil hb
        simp [has]
    obtain ⟨h4, os2, p4, e4, r4, m4, n4⟩ := splitLoop_spec [] (endOf k (as ++ bs)) bs [] (ys := [])
      (zs := zs) (ws := []) (prev := p)
      (curr := if as = [] then (h2.lobj l).head else bs.head?.or (endOf k (as ++ bs)))
      r2' (by simpa using s3) (by omega) hcurr (Or.inr rfl) (fun a _ => o2' a)
    have f4 : Frame h3 h4 (fun _ => False) (· = h1.nLists) :=
      m4.frame.mono (fun a _ ha => o2' a ha) (fun _ _ => id)
    have fall : Frame h h4 (fun _ => False) (fun _ => False) :=
      (f12.trans f3 (fun _ _ hf => hf) (by rintro x hx rfl; omega)).trans f4 (fun _ _ hf => hf)
        (by rintro x hx rfl; omega)
    have own1 : ∀ a, Own k h4 h.nLists os1 a → h2.nNodes ≤ a ∧ a < h3.nNodes := by
      intro a ha
      have := (Own.frame f4 r3.lbound hne a).1 ha
      exact ⟨(m3.own a this).resolve_left (o1' a), r3.own_bound this⟩
    have own2 : ∀ a, Own k h4 h1.nLists os2 a → h3.nNodes ≤ a := fun a ha =>
      (m4.own a ha).resolve_left (o2' a)
    have hb3 := f3.nNodes
    refine ⟨h4, h.nLists, h1.nLists, os1, os2, ?_, hne,
      ⟨?_, Nat.le_refl _, fun a ha => ?_, fall⟩, ⟨?_, by omega, fun a ha => ?_, fall⟩, ?_⟩
    · have e5 : (h2.lobj l).length - i = bs.length := by rw [rr.len]; simp; omega
      rw [ha] at e3
      simp only [splitAt, run_bind, e1, e2, run_getList, h0, if_false, e3, e5, e4, run_pure]
    · rw [← hy]; simpa using r3.frame f4 (by simp) hne
    · have := (own1 a ha).1; omega
    · rw [← hy]; simpa using r4
    · have := own2 a ha; omega
    · intro a ha hb
      have h5 := (own1 a ha).2; have h6 := own2 a hb; omega

theorem reverseLoop_spec {k : Kind} {out : Addr} (e : Option Addr) :
    ∀ (bs os : List Addr) {h : Heap V X} {ys zs : List V} {curr : Option Addr},
    Rep k h out os ys → Src h bs zs e → (bs ≠ [] → curr = bs.head?) →
    (∀ a ∈ bs, ¬ Own k h out os a) →
    ∃ h' os', reverseLoop k out bs.length curr h = (.ok (), h') ∧
      Rep k h' out os' (zs.reverse ++ ys) ∧ Mut k h h' out os os' ∧ h'.nLists = h.nLists
  | [], os, h, ys, zs, curr, r, s, hc, hd => by
    have : zs = [] := List.eq_nil_of_length_eq_zero s.length_eq.symm
    subst this
    exact ⟨h, os, by simp [reverseLoop], by simpa using r, Mut.refl _ _ _ _, rfl⟩
  | b :: bs, os, h, ys, zs, curr, r, s, hc, hd => by
    obtain ⟨z, zs, rfl⟩ := List.exists_cons_of_ne_nil (l := zs) (by
      rintro rfl; have := s.length_eq; simp at this)
    have hc := hc (by simp)
    simp only [List.head?_cons] at hc
    subst hc
    obtain ⟨d, nx, nz, s'⟩ := Src.uncons s
    obtain ⟨h1, os1, e1, r1, m1, c1⟩ := addFront_spec r z
    rw [nz] at r1
    have s1 := s.frame m1.frame hd
    have nx1 : (h1.node b).next = bs.head?.or e := by
      rw [m1.frame.node b (s.bound b (by simp)) (hd b (by simp))]; exact nx
    have hd1 : ∀ a ∈ bs, ¬ Own k h1 out os1 a := by
      intro a ha ho
      rcases m1.own a ho with h2 | h2
      · exact hd a (by simp [ha]) h2
      · exact Nat.not_lt.2 h2 (s'.bound a ha)
    obtain ⟨h2, os2, e2, r2, m2, c2⟩ := reverseLoop_spec e bs os1
      (curr := (h1.node b).next) r1 s1.uncons.2.2.2
      (by intro hne; rw [nx1]; cases bs <;> simp_all) hd1
    refine ⟨h2, os2, ?_, by simpa using r2, m1.trans m2, by omega⟩
    simp only [List.length_cons, reverseLoop, run_bind, run_getData, d, run_pure, e1,
      run_getNext, e2]

theorem reverse_spec {k : Kind} {h : Heap V X} {l : Addr} {ns : List Addr} {xs : List V}
    (r : Rep k h l ns xs) :
    ∃ h' l' ns', reverse k l h = (.ok l', h') ∧ Built k h h' l' ns' xs.reverse := by
  obtain ⟨h1, e1, b1⟩ := newList_built k h
  have r1 := r.frame b1.frame (by simp) (by simp)
  obtain ⟨h2, os, e2, r2, m2, _⟩ := reverseLoop_spec (endOf k ns) ns [] (ys := [])
    (curr := (h1.lobj l).head) b1.rep r1.src r1.head (by
      intro a ha ho
      exact Nat.not_lt.2 (b1.own a ho) (r.bound a ha))
  refine ⟨h2, _, os, ?_, b1.mut m2 (by simpa using r2)⟩
  simp only [reverse, run_bind, e1, run_getList, r1.len, e2, run_pure]

end Extra
