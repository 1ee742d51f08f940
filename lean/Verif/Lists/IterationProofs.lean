import Verif.Lists.IterationSpec
import Verif.Lists.Calls

/-! # The generator meets its specification: lemmas -/

set_option linter.unusedSectionVars false
set_option linter.unusedSimpArgs false
attribute [local irreducible] Extra.upd

namespace Extra
variable {V X : Type} [PyData V] [Inhabited X]
variable {k : Kind} {h h' : Heap V X} {l : Addr} {ns ns' : List Addr} {xs : List V}

theorem Lnk.next_at : ∀ {ns : List Addr} {e : Option Addr} {i : Nat} {a : Addr},
    Lnk h ns e → ns[i]? = some a → (h.node a).next = ns[i + 1]?.or e
  | [], _, _, _, _, hi => by simp at hi
  | b :: bs, e, 0, a, hl, hi => by
    simp only [List.getElem?_cons_zero, Option.some.injEq] at hi
    subst hi
    rw [hl.1]; cases bs <;> simp
  | b :: bs, e, i + 1, a, hl, hi => by
    simp only [List.getElem?_cons_succ] at hi
    rw [hl.2.next_at hi]; simp

theorem Rep.data_at (r : Rep k h l ns xs) {i : Nat} {a : Addr} (hi : ns[i]? = some a) :
    (h.node a).data = xs[i]? := by
  have := congrArg (fun q => q[i]?) r.data
  simp only [List.getElem?_map, hi, Option.map_some] at this
  cases hx : xs[i]? with
  | none => rw [hx] at this; simp at this
  | some x => rw [hx] at this; simpa using this

/-- the cursor of the specification and the generator agree on where they are -/
def PlaceOK (k : Kind) (h : Heap V X) (ns : List Addr) : Place V → Addr → Prop
  | .on i, a => ns[i]? = some a
  | .off dead j, a => j ≤ ns.length ∧ (k = .cll → j < ns.length) ∧
      (k = .ll → j = 0 → ns = []) ∧ ∃ ss : List Addr,
      (∀ s ∈ a :: ss, s < h.nNodes ∧ s ∉ ns) ∧
      ss.map (fun s => (h.node s).data) = dead.map some ∧ Lnk h (a :: ss) ns[j]?
  | .lost, _ => True

def CurOK (k : Kind) (h : Heap V X) (ns : List Addr) : IterPos V → Iter → Prop
  | .fresh, .fresh => True
  | .over, .over => True
  | .susp c p, .susp c' a => c = c' ∧ PlaceOK k h ns p a
  | _, _ => False

theorem CurOK.map {f : Place V → Place V} {cur : IterPos V} {it : Iter}
    (c : CurOK k h ns cur it)
    (hf : ∀ p a, PlaceOK k h ns p a → PlaceOK k h' ns' (f p) a) :
    CurOK k h' ns' (cur.map f) it := by
  cases cur <;> cases it <;> simp_all [CurOK, IterPos.map]

theorem goTo_ok (r : Rep k h l ns xs) {c j : Nat} {p : Option Addr} (hc : c < xs.length)
    (hp : p = ns[j]?) {st : Step V} {cur' : IterPos V} (e : goTo xs c j = (st, cur')) :
    ∃ it', iterTest l h c p = (st, it') ∧ CurOK k h ns cur' it' := by
  subst hp
  have hlen := r.length_eq
  unfold goTo at e
  unfold iterTest
  rw [if_pos (by rw [r.lenobj]; exact hc)]
  cases hn : ns[j]? with
  | none =>
    have : xs[j]? = none := by
      rw [List.getElem?_eq_none_iff] at hn ⊢; omega
    rw [this] at e
    simp only [Prod.mk.injEq] at e
    obtain ⟨rfl, rfl⟩ := e
    exact ⟨_, rfl, trivial⟩
  | some a =>
    have hd := r.data_at hn
    cases hx : xs[j]? with
    | none =>
      rw [List.getElem?_eq_none_iff] at hx
      have : j < ns.length := (List.getElem?_eq_some_iff.1 hn).1
      omega
    | some x =>
      rw [hx] at e hd
      simp only [Prod.mk.injEq] at e
      obtain ⟨rfl, rfl⟩ := e
      exact ⟨.susp c a, by simp only [hd], rfl, hn⟩

theorem next_ok (r : Rep k h l ns xs) {cur cur' : IterPos V} {it : Iter} {st : Step V}
    (c : CurOK k h ns cur it) (e : cur.next k xs = some (st, cur')) :
    ∃ it', iterNext l h it = (st, it') ∧ CurOK k h ns cur' it' := by
  have hlen := r.length_eq
  cases cur with
  | fresh =>
    cases it <;> simp only [CurOK] at c
    simp only [IterPos.next, Option.some.injEq] at e
    by_cases hx : xs = []
    · rw [if_pos hx, Prod.mk.injEq] at e
      obtain ⟨rfl, rfl⟩ := e
      refine ⟨.over, ?_, trivial⟩
      simp [iterNext, iterTest, r.lenobj, hx]
    · rw [if_neg hx] at e
      have hpos := List.length_pos_iff.2 hx
      have hns : ns ≠ [] := by rintro rfl; simp at hlen; omega
      exact goTo_ok r hpos (by rw [r.head hns]; cases ns <;> simp) e
  | over =>
    cases it <;> simp only [CurOK] at c
    simp only [IterPos.next, Option.some.injEq, Prod.mk.injEq] at e
    obtain ⟨rfl, rfl⟩ := e
    exact ⟨.over, rfl, trivial⟩
  | susp n p =>
    cases it <;> simp only [CurOK] at c
    rename_i n' a
    obtain ⟨rfl, c⟩ := c
    simp only [IterPos.next] at e
    by_cases hx : xs.length ≤ n + 1
    · rw [if_pos hx, Option.some.injEq, Prod.mk.injEq] at e
      obtain ⟨rfl, rfl⟩ := e
      refine ⟨.over, ?_, trivial⟩
      simp only [iterNext, iterTest, r.lenobj]
      rw [if_neg (by omega)]
    · rw [if_neg hx] at e
      simp only [iterNext]
      cases p with
      | lost => simp at e
      | on i =>
        simp only [Option.some.injEq] at e
        have c' : ns[i]? = some a := c
        have hi := (List.getElem?_eq_some_iff.1 c').1
        refine goTo_ok r (by omega) ?_ e
        rw [r.links.next_at c', cellAfter]
        by_cases hl : i + 1 = xs.length
        · have : ns[i + 1]? = none := by rw [List.getElem?_eq_none_iff]; omega
          cases k with
          | cll => simp only [hl, and_self, if_true]; rw [← hl, this]; simp [endOf]; cases ns <;> simp
          | ll | dll => simp [hl, endOf]
        · have : i + 1 < ns.length := by omega
          simp [hl, List.getElem?_eq_getElem this]
      | off dead j =>
        obtain ⟨c1, c2, c0, ss, c3, c4, c5⟩ := c
        cases dead with
        | nil =>
          have : ss = [] := by simpa using c4
          subst this
          simp only [Option.some.injEq] at e
          exact goTo_ok r (by omega) (by simpa using c5.1) e
        | cons v dead =>
          obtain ⟨s, ss, rfl⟩ := List.exists_cons_of_ne_nil (l := ss) (by rintro rfl; simp at c4)
          simp only [Option.some.injEq, Prod.mk.injEq] at e
          obtain ⟨rfl, rfl⟩ := e
          simp only [List.map_cons, List.cons.injEq] at c4
          refine ⟨.susp (n + 1) s, ?_, rfl, c1, c2, c0, ss,
            fun q hq => c3 q (List.mem_cons_of_mem _ hq), c4.2, c5.2⟩
          have hnx : (h.node a).next = some s := by simpa using c5.1
          rw [hnx, iterTest, if_pos (by rw [r.lenobj]; omega)]
          simp [c4.1]

/-! ## Insertion -/

theorem putNodes_eq (k : Kind) (as : List Addr) (n : Addr) (bs : List Addr) :
    putNodes k as n bs = (as ++ bs).insertIdx (newCell k (as ++ bs).length as.length) n := by
  have gen : as ++ n :: bs = (as ++ bs).insertIdx as.length n := (insertIdx_append as bs n).symm
  unfold newCell
  cases k with
  | ll => simpa [putNodes] using gen
  | dll => simpa [putNodes] using gen
  | cll =>
    cases as with
    | nil => cases bs <;> simp [putNodes]
    | cons a as => simpa [putNodes] using gen

theorem insertAt_nodes (r : Rep k h l ns xs) {i : Nat} (hi : i ≤ xs.length) (v : V) :
    ∃ h', insertAt k l i v h = (.ok (), h') ∧
      Rep k h' l (ns.insertIdx (newCell k xs.length i) h.nNodes) (xs.insertIdx i (PyData.norm v)) ∧
      Frame h h' (· ∈ ns) (· = l) := by
  have hns := r.length_eq
  obtain ⟨as, bs, rfl, ha⟩ := split_at_len ns (i := i) (by omega)
  obtain ⟨ys, zs, rfl, hy⟩ := split_at_len xs hi
  obtain ⟨c, e0, _⟩ := getNode_spec r
  obtain ⟨h1, e1, n1, o1, L1, b1, c1⟩ := newNode_run (default : X) v h
  have f1 : Frame h h1 (fun _ => False) (fun _ => False) :=
    ⟨fun a ha _ => o1 a (Nat.ne_of_lt ha), fun _ _ _ => by rw [L1], by omega, by omega⟩
  have r1 := r.frame f1 (by simp) (by simp)
  have hn : h.nNodes ∉ as ++ bs := fun e => Nat.lt_irrefl _ (r.bound _ e)
  obtain ⟨h2, m, ns', e2, r2, _, _, f2, b2, c2, _, _, q⟩ :=
    insertNode_spec (n := h.nNodes) (v := PyData.norm v) r1 (ha.trans hy.symm) hn (by omega)
      (by rw [n1]) (PyData.norm_norm v) (by rw [n1]) (by rw [n1]) (Or.inl rfl)
  refine ⟨h2, ?_, ?_, ?_⟩
  · rw [ha] at e0
    rw [insertAt, run_bind_ok e0]
    simp only
    rw [insertValue, run_bind, run_bind_ok e1, e2]
    rfl
  · rw [← hns, ← ha, ← putNodes_eq, ← q]
    rw [ha.trans hy.symm, insertIdx_append]; exact r2
  · refine (f1.mono (S' := (· ∈ as ++ bs)) (L' := (· = l)) (by simp) (by simp)).trans f2
      ?_ (fun _ _ => id)
    rintro a ha (h3 | rfl)
    · exact h3
    · exact absurd ha (Nat.lt_irrefl _)

/-- dropped nodes are left alone by what happens to the list -/
theorem dead_frame {dead : List V} {a : Addr} {e e' : Option Addr} {ss : List Addr}
    (f : Frame h h' (· ∈ ns) (· = l)) (hs : ∀ s ∈ a :: ss, s < h.nNodes ∧ s ∉ ns)
    (hd : ss.map (fun s => (h.node s).data) = dead.map some) (hl : Lnk h (a :: ss) e)
    (he : e' = e) (hsub : ∀ b ∈ ns', b ∈ ns ∨ h.nNodes ≤ b) :
    (∀ s ∈ a :: ss, s < h'.nNodes ∧ s ∉ ns') ∧
      ss.map (fun s => (h'.node s).data) = dead.map some ∧ Lnk h' (a :: ss) e' := by
  subst he
  have hn : ∀ s ∈ a :: ss, h'.node s = h.node s := fun s q => f.node s (hs s q).1 (hs s q).2
  refine ⟨fun s q => ⟨Nat.lt_of_lt_of_le (hs s q).1 f.nNodes, fun q' => ?_⟩, ?_,
    hl.congr (fun s q => by rw [hn s q])⟩
  · rcases hsub s q' with q'' | q''
    · exact (hs s q).2 q''
    · exact absurd (hs s q).1 (Nat.not_lt.2 q'')
  · rw [← hd]; exact List.map_congr_left (fun s q => by rw [hn s (List.mem_cons_of_mem _ q)])

theorem grow_ok {c n : Nat} (hc : c ≤ ns.length) (hn : h.nNodes ≤ n)
    (f : Frame h h' (· ∈ ns) (· = l)) (p : Place V) (a : Addr)
    (ok : PlaceOK k h ns p a) : PlaceOK k h' (ns.insertIdx c n) (p.grow c) a := by
  have hget : ∀ j, (ns.insertIdx c n)[if j < c then j else j + 1]? = ns[j]? := by
    intro j
    by_cases h1 : j < c
    · rw [if_pos h1, List.getElem?_insertIdx_of_lt h1]
    · rw [if_neg h1, List.getElem?_insertIdx_of_gt (by omega)]; simp
  have hlen : (ns.insertIdx c n).length = ns.length + 1 := by
    rw [List.length_insertIdx, if_pos hc]
  cases p with
  | on i =>
    have ok' : ns[i]? = some a := ok
    have hi := (List.getElem?_eq_some_iff.1 ok').1
    show (ns.insertIdx c n)[_]? = some a
    rw [hget i]; exact ok'
  | off dead j =>
    obtain ⟨c1, c2, c0, ss, c3, c4, c5⟩ := ok
    refine ⟨?_, ?_, ?_, ss, dead_frame f c3 c4 c5 (hget j) ?_⟩
    · rw [hlen]; split <;> omega
    · intro hk; have := c2 hk; rw [hlen]; split <;> omega
    · intro hk hj
      split at hj
      · have := c0 hk hj; subst this; simp at hc; omega
      · omega
    · intro b hb
      rcases (List.mem_insertIdx hc).1 hb with rfl | hb
      · exact Or.inr hn
      · exact Or.inl hb
  | lost => trivial

/-! ## Removal -/

theorem leftNodes_eq (k : Kind) (as : List Addr) (n : Addr) (bs : List Addr)
    (h2 : 2 ≤ (as ++ n :: bs).length) :
    leftNodes k as n bs = (as ++ n :: bs).eraseIdx (deadCell k (as ++ n :: bs).length as.length) := by
  unfold deadCell
  cases as with
  | nil =>
    cases bs with
    | nil => simp at h2
    | cons b bs =>
      by_cases hk : k = .dll ∧ bs = []
      · obtain ⟨rfl, rfl⟩ := hk; simp [leftNodes]
      · have : ¬ (k = .dll ∧ ([] ++ n :: b :: bs).length = 2) := by
          rintro ⟨rfl, hl⟩; simp at hl; exact hk ⟨rfl, hl⟩
        simp only [leftNodes, if_neg hk, List.length_nil, this, not_false_iff, and_self, if_true]
        simp
  | cons a as =>
    have : (a :: as).length ≠ 0 := by simp
    simp only [this, false_and, if_false, leftNodes]
    rw [List.eraseIdx_append_of_length_le (Nat.le_refl _)]; simp

/-- the dropped node keeps its `_next` and its data -/
theorem removeNode_dead {as bs : List Addr} {ys zs : List V} {n : Addr} {x : V}
    (r : Rep k h l (as ++ n :: bs) (ys ++ x :: zs)) (h2 : 2 ≤ (as ++ n :: bs).length)
    (e : removeNode k l as.getLast? n h = (.ok (), h')) {a : Addr}
    (ha : (as ++ n :: bs)[deadCell k (as ++ n :: bs).length as.length]? = some a) :
    (h'.node a).next = (h.node a).next ∧ (h'.node a).data = (h.node a).data := by
  have hl := r.len
  have hnd := r.nodup
  have hlk := r.links
  rcases List.eq_nil_or_concat as with rfl | ⟨as', p, rfl⟩
  · obtain ⟨b, bs, rfl⟩ := List.exists_cons_of_ne_nil (l := bs) (by rintro rfl; simp at h2)
    have hh := r.head (by simp)
    have hnx := hlk.1
    simp only [List.nil_append, List.head?_cons, Option.some_or, List.nodup_cons, List.mem_cons,
      not_or, List.length_cons, List.length_nil, List.getLast?_nil] at *
    have hnb : b ≠ n := fun q => hnd.1.1 q.symm
    obtain ⟨y, hy⟩ : ∃ y, (h.node b).data = some y := by
      rw [r.data_at (i := 1) (a := b) (by simp)]
      exact ⟨_, List.getElem?_eq_getElem (by have := r.length_eq; simp at this ⊢; omega)⟩
    cases k with
    | ll =>
      simp only [deadCell, reduceCtorEq, false_and, not_false_iff, and_self, if_true,
        List.getElem?_cons_succ, List.getElem?_cons_zero, Option.some.injEq] at ha
      subst ha
      simp [removeNode, removeNodeLL, run_bind, hl, hh, hnx, setNext, hy, setData,
        upd_ne _ _ hnb] at e
      rw [← e]
      simp [upd_ne _ _ hnb]
    | cll =>
      simp only [deadCell, reduceCtorEq, false_and, not_false_iff, and_self, if_true,
        List.getElem?_cons_succ, List.getElem?_cons_zero, Option.some.injEq] at ha
      subst ha
      simp [removeNode, removeNodeCLL, run_bind, hl, hh, hnx, setNext, hy, setData,
        upd_ne _ _ hnb] at e
      rw [← e]
      simp [upd_ne _ _ hnb]
    | dll =>
      cases bs with
      | nil =>
        simp [deadCell] at ha
        subst ha
        simp [removeNode, removeNodeDLL, run_bind, hl, hh, hnx, setPrev] at e
        rw [← e]
        simp [upd_ne _ _ hnb.symm]
      | cons c bs =>
        simp [deadCell] at ha
        subst ha
        have hnb2 : (h.node b).next = some c := by simpa using hlk.2.1
        have hcb : b ≠ c := by have := hnd.2.1; simp at this; exact this.1
        simp [removeNode, removeNodeDLL, removeNodeLL, run_bind, hl, hh, hnx, hnb2, setNext, hy,
          setData, upd_ne _ _ hnb, upd_ne _ _ hcb] at e
        rw [← e]
        simp [upd_ne _ _ hnb, upd_ne _ _ hcb]
  · have hdc : ∀ m, deadCell k m (as'.concat p).length = (as'.concat p).length := by
      intro m; simp [deadCell]
    rw [hdc, List.getElem?_append_right (Nat.le_refl _)] at ha
    simp at ha
    subst ha
    simp only [List.concat_eq_append, List.getLast?_append, List.getLast?_singleton,
      Option.some_or, List.append_assoc, List.singleton_append] at *
    have hpn : n ≠ p := by
      rintro rfl
      have := (List.nodup_append.1 hnd).2.1
      simp at this
    cases k with
    | ll =>
      simp [removeNode, removeNodeLL, run_bind, setNext] at e
      rw [← e]; simp [upd_ne _ _ hpn]
    | cll =>
      simp [removeNode, removeNodeCLL, run_bind, setNext] at e
      rw [← e]; simp [upd_ne _ _ hpn]
    | dll =>
      have h1 : (h.lobj l).length ≠ 1 := by rw [hl]; omega
      simp only [removeNode, removeNodeDLL, run_bind, run_getList, run_getNext, h1, if_false] at e
      cases hnx : (h.node n).next with
      | none =>
        by_cases h2 : (h.lobj l).length = 2 <;>
          simp [h2, hnx, setNext, run_bind] at e <;>
          · rw [← e]; simp [upd_ne _ _ hpn, hnx]
      | some q =>
        by_cases h2 : (h.lobj l).length = 2
        · simp [h2, hnx, setNext, run_bind] at e
          rw [← e]; simp [hnx]
        · simp [h2, hnx, removeNodeLL, setNext, run_bind] at e
          rw [← e]
          by_cases hqn : n = q
          · subst hqn; simp [upd_ne _ _ hpn, hnx]
          · simp [upd_ne _ _ hpn, upd_ne _ _ hqn, hnx]

theorem removeNode_nodes {as bs : List Addr} {ys zs : List V} {b : Addr} {z : V}
    (r : Rep k h l (as ++ b :: bs) (ys ++ z :: zs)) (hlen : as.length = ys.length) :
    ∃ h', removeNode k l as.getLast? b h = (.ok (), h') ∧
      Rep k h' l (leftNodes k as b bs) (ys ++ zs) ∧
      Frame h h' (· ∈ as ++ b :: bs) (· = l) ∧
      ((ys ++ z :: zs).length ≠ 1 → leftNodes k as b bs =
          (as ++ b :: bs).eraseIdx (deadCell k (ys ++ z :: zs).length ys.length) ∧
        ∀ a, (as ++ b :: bs)[deadCell k (ys ++ z :: zs).length ys.length]? = some a →
          (h'.node a).next = (h.node a).next ∧ (h'.node a).data = (h.node a).data) := by
  have hns := r.length_eq
  obtain ⟨h', e2, r2, f2, _, _⟩ := removeNode_spec r hlen
  refine ⟨h', e2, r2, f2, fun h1 => ?_⟩
  have h2 : 2 ≤ (as ++ b :: bs).length := by
    rw [hns]; simp only [List.length_append, List.length_cons] at h1 ⊢; omega
  rw [← hns, ← hlen]
  exact ⟨leftNodes_eq k as b bs h2, fun a hd => removeNode_dead r h2 e2 hd⟩

theorem deadCell_lt {len i : Nat} (hi : i < len) (h1 : len ≠ 1) : deadCell k len i < len := by
  unfold deadCell; split <;> omega

theorem erase_get {d j : Nat} (hj : j ≠ d) :
    (ns.eraseIdx d)[if j < d then j else j - 1]? = ns[j]? := by
  rw [List.getElem?_eraseIdx]
  by_cases h1 : j < d
  · rw [if_pos h1, if_pos h1]
  · rw [if_neg h1, if_neg (by omega)]; congr 1; omega

theorem fall_get {d : Nat} (hd : d < ns.length) (h2 : 2 ≤ ns.length) :
    (ns.eraseIdx d)[fallTo k ns.length d]? = ns[d + 1]?.or (endOf k ns) := by
  unfold fallTo
  rw [List.getElem?_eraseIdx]
  by_cases h1 : d + 1 = ns.length
  · have hn : ns[d + 1]? = none := by rw [List.getElem?_eq_none_iff]; omega
    cases k with
    | cll =>
      simp only [h1, and_self, if_true]
      rw [if_pos (by omega), ← h1, hn]; cases ns <;> simp [endOf]
    | ll | dll => simp [hn, endOf]
  · have : d + 1 < ns.length := by omega
    simp [h1, List.getElem?_eq_getElem this]

theorem Lnk_snoc {ss : List Addr} {b : Addr} {e : Option Addr} (h1 : Lnk h ss (some b))
    (h2 : (h.node b).next = e) : Lnk h (ss ++ [b]) e := by
  rw [Lnk_append]; exact ⟨by simpa using h1, by simpa [Lnk] using h2⟩

theorem shrink_ok (r : Rep k h l ns xs) {d : Nat} (hd : d < ns.length) (h2 : 2 ≤ ns.length)
    (hd0 : k = .ll → d ≠ 0)
    (f : Frame h h' (· ∈ ns) (· = l))
    (hdead : ∀ a, ns[d]? = some a →
      (h'.node a).next = (h.node a).next ∧ (h'.node a).data = (h.node a).data)
    (p : Place V) (a : Addr) (ok : PlaceOK k h ns p a) :
    PlaceOK k h' (ns.eraseIdx d) (p.shrink k xs d) a := by
  have hns := r.length_eq
  have hlen : (ns.eraseIdx d).length = ns.length - 1 := List.length_eraseIdx_of_lt hd
  obtain ⟨b, hb⟩ : ∃ b, ns[d]? = some b := ⟨_, List.getElem?_eq_getElem hd⟩
  obtain ⟨b1, b2⟩ := hdead b hb
  have hbn : b ∈ ns := List.mem_of_getElem? hb
  have hbe : b ∉ ns.eraseIdx d := by
    intro hm
    obtain ⟨j, hj⟩ := List.mem_iff_getElem?.1 hm
    rw [List.getElem?_eraseIdx] at hj
    have hjd : ∀ q, ns[q]? = some b → q = d := fun q hq =>
      (List.getElem?_inj (List.getElem?_eq_some_iff.1 hq).1 r.nodup).1 (hq.trans hb.symm)
    split at hj
    · have := hjd _ hj; omega
    · have := hjd _ hj; omega
  have hfall : fallTo k ns.length d ≤ ns.length - 1 ∧
      (k = .cll → fallTo k ns.length d < ns.length - 1) := by
    unfold fallTo; split <;> constructor
    · omega
    · omega
    · omega
    · intro hk; rename_i hc; simp only [hk, true_and] at hc; omega
  have hfall0 : k = .ll → fallTo k xs.length d = 0 → ns.eraseIdx d = [] := by
    intro hk hf
    unfold fallTo at hf
    rw [if_neg (by rw [hk]; simp)] at hf
    exact absurd hf (hd0 hk)
  have hnext : (h'.node b).next = (ns.eraseIdx d)[fallTo k ns.length d]? := by
    rw [b1, r.links.next_at hb, fall_get hd h2]
  have hsub : ∀ c ∈ ns.eraseIdx d, c ∈ ns ∨ h.nNodes ≤ c :=
    fun c hc => Or.inl (List.mem_of_mem_eraseIdx hc)
  have hbb : b < h'.nNodes := Nat.lt_of_lt_of_le (r.bound b hbn) f.nNodes
  cases p with
  | lost => trivial
  | on i =>
    have ok' : ns[i]? = some a := ok
    by_cases hi : i = d
    · subst hi
      have : a = b := by rw [hb] at ok'; exact (Option.some.inj ok').symm
      subst this
      simp only [Place.shrink, if_true]
      refine ⟨by rw [← hns, hlen]; exact hfall.1, fun hk => by rw [← hns, hlen]; exact hfall.2 hk,
        hfall0, [], ?_, rfl, ?_⟩
      · intro s hs
        rw [List.mem_singleton] at hs; subst hs
        exact ⟨hbb, hbe⟩
      · rw [← hns]; exact ⟨by simpa using hnext, trivial⟩
    · simp only [Place.shrink, if_neg hi]
      show (ns.eraseIdx d)[_]? = some a
      rw [erase_get hi]; exact ok'
  | off dead j =>
    obtain ⟨c1, c2, c0, ss, c3, c4, c5⟩ := ok
    by_cases hj : j = d
    · subst hj
      simp only [Place.shrink, if_true]
      rw [hb] at c5
      obtain ⟨q1, q2, q3⟩ := dead_frame f c3 c4 c5 rfl hsub
      refine ⟨by rw [← hns, hlen]; exact hfall.1, fun hk => by rw [← hns, hlen]; exact hfall.2 hk,
        hfall0, ss ++ [b], ?_, ?_, ?_⟩
      · intro s hs
        rw [← List.cons_append, List.mem_append, List.mem_singleton] at hs
        rcases hs with hs | rfl
        · exact q1 s hs
        · exact ⟨hbb, hbe⟩
      · have hx : ∃ x, xs[j]? = some x := ⟨_, List.getElem?_eq_getElem (by omega)⟩
        obtain ⟨x, hx⟩ := hx
        rw [List.map_append, q2, hx, Option.toList_some, List.map_append, List.map_singleton,
          List.map_singleton, b2, r.data_at hb, hx]
      · rw [← List.cons_append, ← hns]
        exact Lnk_snoc q3 hnext
    · simp only [Place.shrink, if_neg hj]
      refine ⟨?_, ?_, ?_, ss, dead_frame f c3 c4 c5 (erase_get hj) hsub⟩
      · rw [hlen]; split <;> omega
      · intro hk; have := c2 hk; rw [hlen]; split <;> omega
      · intro hk hj0
        have h3 := hd0 hk
        split at hj0
        · have := c0 hk hj0; subst this; simp at h2
        · omega

/-! ## One call, then many -/

/-- list and generator are in the state `s` of the specification -/
def StateOK (k : Kind) (h : Heap V X) (l : Addr) (s : List V × IterPos V) (it : Iter) : Prop :=
  ∃ ns, Rep k h l ns s.1 ∧ CurOK k h ns s.2 it

theorem Lnk.drop {ns : List Addr} {e : Option Addr} (hl : Lnk h ns e) (i : Nat) :
    Lnk h (ns.drop i) e := by
  rw [← List.take_append_drop i ns, Lnk_append] at hl
  exact hl.2

/-- the list is cleared: the nodes stay as they are -/
theorem clear_ok (r : Rep k h l ns xs) (hN : h'.node = h.node) (hb : h.nNodes ≤ h'.nNodes)
    (p : Place V) (a : Addr) (ok : PlaceOK k h ns p a) :
    PlaceOK k h' ([] : List Addr) (p.clear k xs) a := by
  unfold Place.clear
  by_cases hk : k = .cll
  · rw [if_pos hk]; trivial
  · rw [if_neg hk]
    have hend : endOf k ns = none := by cases k <;> simp_all [endOf]
    have hl := r.links
    rw [hend] at hl
    have hcong : ∀ {ss : List Addr} {e : Option Addr}, Lnk h ss e → Lnk h' ss e :=
      fun q => q.congr (fun a _ => by rw [hN])
    have hdata : ∀ i, (ns.drop i).map (fun s => (h.node s).data) = (xs.drop i).map some := by
      intro i; rw [List.map_drop, List.map_drop, r.data]
    have hbd : ∀ i, ∀ s ∈ ns.drop i, s < h'.nNodes := fun i s hs =>
      Nat.lt_of_lt_of_le (r.bound s (List.mem_of_mem_drop hs)) hb
    cases p with
    | lost => trivial
    | on i =>
      have ok' : ns[i]? = some a := ok
      obtain ⟨hi, ha⟩ := List.getElem?_eq_some_iff.1 ok'
      have hd : ns.drop i = a :: ns.drop (i + 1) := by rw [List.drop_eq_getElem_cons hi, ha]
      refine ⟨Nat.le_refl _, fun q => absurd q hk, fun _ _ => rfl, ns.drop (i + 1), ?_, ?_, ?_⟩
      · intro s hs; rw [← hd] at hs; exact ⟨hbd i s hs, by simp⟩
      · rw [hN]; exact hdata _
      · rw [← hd]; exact hcong (hl.drop i)
    | off dead j =>
      obtain ⟨c1, c2, c0, ss, c3, c4, c5⟩ := ok
      refine ⟨Nat.le_refl _, fun q => absurd q hk, fun _ _ => rfl, ss ++ ns.drop j, ?_, ?_, ?_⟩
      · intro s hs
        rw [← List.cons_append, List.mem_append] at hs
        rcases hs with hs | hs
        · exact ⟨Nat.lt_of_lt_of_le (c3 s hs).1 hb, by simp⟩
        · exact ⟨hbd j s hs, by simp⟩
      · rw [hN, List.map_append, c4, hdata, List.map_append]
      · rw [← List.cons_append, Lnk_append]
        refine ⟨?_, hcong (hl.drop j)⟩
        have : (ns.drop j).head?.or (([] : List Addr)[0]?) = ns[j]? := by simp
        rw [this]; exact hcong c5

/-- the last value is removed -/
theorem last_ok {b : Addr} {x : V} (r : Rep k h l [b] [x]) (f : Frame h h' (· ∈ [b]) (· = l))
    (hx : (h'.node b).next = (h.node b).next) (hd : k = .dll → (h'.node b).data = (h.node b).data)
    (p : Place V) (a : Addr) (ok : PlaceOK k h [b] p a) :
    PlaceOK k h' ([] : List Addr) (p.clear k [x]) a := by
  unfold Place.clear
  by_cases hk : k = .cll
  · rw [if_pos hk]; trivial
  · rw [if_neg hk]
    have hend : endOf k [b] = none := by cases k <;> simp_all [endOf]
    have hl := r.links.1
    simp only [hend, List.head?_nil, Option.none_or] at hl
    have hbb : b < h'.nNodes := Nat.lt_of_lt_of_le (r.bound b (by simp)) f.nNodes
    cases p with
    | lost => trivial
    | on i =>
      have ok' : [b][i]? = some a := ok
      obtain ⟨hi, ha⟩ := List.getElem?_eq_some_iff.1 ok'
      have : i = 0 := by simp at hi; omega
      subst this
      simp only [List.getElem_cons_zero] at ha
      subst ha
      refine ⟨Nat.le_refl _, fun q => absurd q hk, fun _ _ => rfl, [], ?_, by simp, ?_⟩
      · intro s hs; rw [List.mem_singleton] at hs; subst hs; exact ⟨hbb, by simp⟩
      · exact ⟨by rw [hx, hl]; rfl, trivial⟩
    | off dead j =>
      obtain ⟨c1, c2, c0, ss, c3, c4, c5⟩ := ok
      have hj : j = 0 ∨ j = 1 := by simp at c1; omega
      rcases hj with rfl | rfl
      · have hdll : k = .dll := by
          cases k with
          | ll => exact absurd (c0 rfl rfl) (by simp)
          | dll => rfl
          | cll => exact absurd rfl hk
        obtain ⟨q1, q2, q3⟩ := dead_frame (ns' := []) f c3 c4 c5 rfl (by simp)
        refine ⟨Nat.le_refl _, fun q => absurd q hk, fun _ _ => rfl, ss ++ [b], ?_, ?_, ?_⟩
        · intro s hs
          rw [← List.cons_append, List.mem_append, List.mem_singleton] at hs
          rcases hs with hs | rfl
          · exact q1 s hs
          · exact ⟨hbb, by simp⟩
        · have := r.data_at (i := 0) (a := b) rfl
          simp only [List.getElem?_cons_zero] at this
          rw [List.map_append, q2, List.map_append, List.drop_zero, List.map_singleton,
            List.map_singleton, hd hdll, this]
        · rw [← List.cons_append]
          exact Lnk_snoc (by simpa using q3) (by rw [hx, hl]; rfl)
      · obtain ⟨q1, q2, q3⟩ := dead_frame (ns' := []) (e' := ([] : List Addr)[0]?) f c3 c4 c5
          (by simp) (by simp)
        exact ⟨Nat.le_refl _, fun q => absurd q hk, fun _ _ => rfl, ss, q1, by simpa using q2, q3⟩

theorem removeNode_last {b : Addr} {x : V} (r : Rep k h l [b] [x])
    (e : removeNode k l none b h = (.ok (), h')) :
    (h'.node b).next = (h.node b).next ∧ (k = .dll → (h'.node b).data = (h.node b).data) := by
  have hl := r.len
  have hh := r.head (by simp)
  simp only [List.length_cons, List.length_nil, Nat.zero_add, List.head?_cons] at hl hh
  cases k with
  | ll =>
    simp [removeNode, removeNodeLL, run_bind, hl, hh] at e
    rw [← e]; simp
  | cll =>
    simp [removeNode, removeNodeCLL, run_bind, hl, hh] at e
    rw [← e]; simp
  | dll =>
    have ht := r.tail rfl (by simp)
    simp only [List.getLast?_singleton] at ht
    simp [removeNode, removeNodeDLL, run_bind, hl, hh, ht] at e
    rw [← e]; simp

theorem putAt_ok {s : List V × IterPos V} {it : Iter} (I : StateOK k h l s it) {i : Nat}
    (hi : i ≤ s.1.length) (v : V) :
    ∃ h', insertAt k l i v h = (.ok (), h') ∧ StateOK k h' l (putValue k i (PyData.norm v) s) it := by
  obtain ⟨ns, r, c⟩ := I
  have hns := r.length_eq
  obtain ⟨h', e, r', f⟩ := insertAt_nodes r hi v
  refine ⟨h', e, _, r', c.map (grow_ok ?_ (Nat.le_refl _) f)⟩
  unfold newCell; split <;> omega

theorem dropNode_ok {as bs : List Addr} {ys zs : List V} {b : Addr} {z : V} {cur : IterPos V}
    {it : Iter} (r : Rep k h l (as ++ b :: bs) (ys ++ z :: zs)) (hlen : as.length = ys.length)
    (c : CurOK k h (as ++ b :: bs) cur it) :
    ∃ h', removeNode k l as.getLast? b h = (.ok (), h') ∧
      Rep k h' l (leftNodes k as b bs) (dropAt k ys.length (ys ++ z :: zs, cur)).1 ∧
      CurOK k h' (leftNodes k as b bs) (dropAt k ys.length (ys ++ z :: zs, cur)).2 it := by
  have hns := r.length_eq
  obtain ⟨h', e, r', f, hd⟩ := removeNode_nodes r hlen
  have he : (ys ++ z :: zs).eraseIdx ys.length = ys ++ zs := by
    rw [List.eraseIdx_append_of_length_le (Nat.le_refl _)]; simp
  refine ⟨h', e, by simp only [dropAt, he]; exact r', ?_⟩
  unfold dropAt
  by_cases h1 : (ys ++ z :: zs).length = 1
  · have hys : ys = [] ∧ zs = [] := by
      simp only [List.length_append, List.length_cons] at h1
      exact ⟨List.eq_nil_of_length_eq_zero (by omega), List.eq_nil_of_length_eq_zero (by omega)⟩
    obtain ⟨rfl, rfl⟩ := hys
    have has : as = [] ∧ bs = [] := by
      simp at hns
      exact ⟨by simpa using hlen, List.eq_nil_of_length_eq_zero (by omega)⟩
    obtain ⟨rfl, rfl⟩ := has
    simp only [h1, if_true]
    obtain ⟨q1, q2⟩ := removeNode_last r e
    exact c.map (last_ok r f q1 q2)
  · obtain ⟨q1, q2⟩ := hd h1
    have h2 : ys.length < (ys ++ z :: zs).length := by simp
    have hdl := deadCell_lt (k := k) h2 h1
    simp only [if_neg h1]
    rw [q1]
    refine c.map (shrink_ok r (by rw [hns]; exact hdl) (by rw [hns]; omega) ?_ f q2)
    rintro rfl; unfold deadCell; simp only [reduceCtorEq, false_and, not_false_iff, and_true]
    split <;> omega

theorem dropAt_ok {s : List V × IterPos V} {it : Iter} (I : StateOK k h l s it) {i : Nat}
    (hi : i < s.1.length) :
    ∃ h', removeIdx k l i h = (.ok (), h') ∧ StateOK k h' l (dropAt k i s) it := by
  obtain ⟨xs, cur⟩ := s
  obtain ⟨ns, r, c⟩ := I
  simp only at r c hi
  have hns := r.length_eq
  obtain ⟨as, bs, rfl, ha⟩ := split_at_len ns (i := i) (by omega)
  obtain ⟨ys, zs, rfl, hy⟩ := split_at_len xs (i := i) (by omega)
  simp only [List.length_append] at hns hi
  obtain ⟨b, bs, rfl⟩ := List.exists_cons_of_ne_nil (l := bs) (by rintro rfl; simp at hns; omega)
  obtain ⟨z, zs, rfl⟩ := List.exists_cons_of_ne_nil (l := zs) (by rintro rfl; simp at hi; omega)
  obtain ⟨n, e1, hc⟩ := getNode_spec r
  have hc := hc (by simp)
  simp only [List.head?_cons, Option.some_or] at hc
  subst hc
  obtain ⟨h', e2, r2, c2⟩ := dropNode_ok r (ha.trans hy.symm) c
  rw [ha] at e1
  rw [hy] at r2 c2
  exact ⟨h', by rw [removeIdx, run_bind_ok e1]; exact e2, _, r2, c2⟩

theorem removeValueLoop_cur (v : V) (all : Bool) {it : Iter} :
    ∀ (n : Nat) (bs as : List Addr) {h : Heap V X} {ys zs : List V} {cur : IterPos V}
      (curr : Option Addr) (found : Bool), bs.length = n →
    Rep k h l (as ++ bs) (ys ++ zs) → CurOK k h (as ++ bs) cur it → as.length = ys.length →
    (bs ≠ [] → curr = bs.head?) →
    ∃ h', removeValueLoop k l v all n as.getLast? curr found h = (.ok (), h') ∧
      StateOK k h' l (if all = false ∧ found = true then (ys ++ zs, cur)
        else dropValue k v all ys.length zs (ys ++ zs, cur)) it := by
  intro n
  induction n with
  | zero =>
    intro bs as h ys zs cur curr found hb r c hlen _
    have hb : bs = [] := List.eq_nil_of_length_eq_zero hb
    subst hb
    have hz : zs = [] := by
      have := r.length_eq; simp at this
      exact List.eq_nil_of_length_eq_zero (by omega)
    subst hz
    exact ⟨h, rfl, _, by simpa [dropValue] using r, by simpa [dropValue] using c⟩
  | succ n ih =>
    intro bs as h ys zs cur curr found hn r c hlen hcurr
    obtain ⟨b, bs, rfl⟩ := List.exists_cons_of_ne_nil (l := bs) (by rintro rfl; simp at hn)
    obtain ⟨z, zs, rfl⟩ := List.exists_cons_of_ne_nil (l := zs) (by
      rintro rfl; have := r.length_eq; simp at this; omega)
    have hcurr := hcurr (by simp)
    simp only [List.head?_cons] at hcurr
    subst hcurr
    simp only [List.length_cons, Nat.add_right_cancel_iff] at hn
    by_cases hstop : all = false ∧ found = true
    · exact ⟨h, by simp [removeValueLoop, hstop], _, by simpa [hstop] using r,
        by simpa [hstop] using c⟩
    · have hd : (h.node b).data = some z := (data_remove hlen r.data).2.1
      rw [if_neg hstop]
      by_cases hz : z = v
      · subst hz
        obtain ⟨h1, e1, r1, c1⟩ := dropNode_ok r hlen c
        have hsplit : leftNodes k as b bs = as ++ (leftNodes k as b bs).drop as.length := by
          conv => lhs; rw [← List.take_append_drop as.length (leftNodes k as b bs), leftNodes_take]
        generalize hbs : (leftNodes k as b bs).drop as.length = bs' at hsplit
        rw [hsplit] at r1 c1
        have he : (dropAt k ys.length (ys ++ z :: zs, cur)).1 = ys ++ zs := by
          simp only [dropAt]
          rw [List.eraseIdx_append_of_length_le (Nat.le_refl _)]; simp
        rw [he] at r1
        have hlen' : bs'.length = n := by
          have h1 := r1.length_eq; have h2 := r.length_eq
          simp at h1 h2; omega
        obtain ⟨c', hc, hc'⟩ : ∃ c, nextAfter l as.getLast? h1 = (.ok c, h1) ∧
            (bs' ≠ [] → c = bs'.head?) := by
          cases hl : as.getLast? with
          | none =>
            have : as = [] := by simpa using hl
            subst this
            exact ⟨_, rfl, fun hne => r1.head (by simpa using hne)⟩
          | some p => exact ⟨_, rfl, fun hne => r1.next_of_last hne hl⟩
        obtain ⟨h2, e2, s2⟩ := ih bs' as c' true hlen' r1 c1 hlen hc'
        refine ⟨h2, ?_, ?_⟩
        · simp only [removeValueLoop, hstop, if_false, run_bind, run_getData, hd, if_true,
            run_deref_some, e1, hc, e2]
        · have hpair : (ys ++ zs, (dropAt k ys.length (ys ++ z :: zs, cur)).2) =
              dropAt k ys.length (ys ++ z :: zs, cur) := Prod.ext he.symm rfl
          rw [hpair] at s2
          cases all
          · simpa [dropValue] using s2
          · simpa [dropValue] using s2
      · have hnx : bs ≠ [] → (h.node b).next = bs.head? := by
          intro hne
          have : as ++ b :: bs = (as ++ [b]) ++ bs := by simp
          rw [this] at r
          exact r.next_of_last hne (by simp)
        have e : as ++ b :: bs = (as ++ [b]) ++ bs := by simp
        have e' : ys ++ z :: zs = (ys ++ [z]) ++ zs := by simp
        rw [e, e'] at r
        rw [e] at c
        obtain ⟨h2, e2, s2⟩ := ih bs (as ++ [b]) ((h.node b).next) found hn r c
          (by simp [hlen]) hnx
        refine ⟨h2, ?_, ?_⟩
        · simp only [removeValueLoop, hstop, if_false, run_bind, run_getData, hd,
            Option.some.injEq, hz, run_getNext]
          simpa using e2
        · simpa [dropValue, hz, if_neg hstop] using s2

theorem specPos_nat {n p : Nat} (hp : p ≤ n) : specPos k n (.int p) = .ok p := by
  have : ¬ ((n : Int) < p) := by omega
  simp [specPos, this]

theorem delItem_eq (r : Rep k h l ns xs) {p : Nat} (hp : p < xs.length) :
    delItem k l (.int p) h = removeIdx k l p h := by
  have hv := validateIndex_spec r (.int p)
  rw [specPos_nat (by omega)] at hv
  have hv := hv.1
  cases k with
  | cll =>
    have hx : xs.length ≠ 0 := by omega
    have hmod : (Idx.int (p : Int)).mod xs.length = p := by
      simp [Idx.mod, Idx.toNat, hx, Nat.mod_eq_of_lt hp]
    simp only [delItem, run_bind, hv, run_getList, r.lenobj, hx, if_false, hmod]
  | ll | dll =>
    have hne' : ¬ (Idx.int (p : Int) = Idx.int (xs.length : Int)) := by
      rw [Idx.int_eq_len]; omega
    simp only [delItem, run_bind, hv, run_getList, r.lenobj, hne', if_false, Idx.toNat,
      Int.toNat_natCast]

theorem act_ok {s s' : List V × IterPos V} {it : Iter} (I : StateOK k h l s it) (a : Act V)
    (e : a.spec k s = some s') :
    ∃ h', a.call k l h = (.ok (), h') ∧ StateOK k h' l s' it := by
  cases a with
  | next =>
    simp only [Act.spec, Option.some.injEq] at e
    subst e; exact ⟨h, rfl, I⟩
  | insert i v =>
    simp only [Act.spec] at e
    split at e
    · rename_i hi
      simp only [Option.some.injEq] at e
      subst e
      obtain ⟨h', e1, I'⟩ := putAt_ok I hi v
      obtain ⟨ns, r, c⟩ := I
      have hv := validateIndex_spec r (.int i)
      rw [specPos_nat hi] at hv
      have hv := hv.1
      refine ⟨h', ?_, I'⟩
      cases k with
      | cll =>
        have : i % (s.1.length + 1) = i := Nat.mod_eq_of_lt (by omega)
        simpa [Act.call, insert, run_bind, hv, validateItem, Idx.toNat, Idx.mod, r.lenobj, this]
          using e1
      | ll | dll =>
        simpa [Act.call, insert, run_bind, hv, validateItem, Idx.toNat, Idx.mod, r.lenobj] using e1
    · simp at e
  | addFront v =>
    simp only [Act.spec, Option.some.injEq] at e
    subst e
    obtain ⟨h', e1, I'⟩ := putAt_ok I (Nat.zero_le _) v
    exact ⟨h', by rw [Act.call, addFront, validateItem, run_bind, run_lift_ok]; exact e1, I'⟩
  | addEnd v =>
    simp only [Act.spec, Option.some.injEq] at e
    subst e
    obtain ⟨h', e1, I'⟩ := putAt_ok I (Nat.le_refl _) v
    obtain ⟨ns, r, c⟩ := I
    refine ⟨h', ?_, I'⟩
    simp only [Act.call, addEnd, validateItem, run_bind, run_lift_ok, llLen, run_getList, run_pure]
    rw [r.lenobj]; exact e1
  | setItem i v =>
    simp only [Act.spec] at e
    split at e
    · rename_i hi
      simp only [Option.some.injEq] at e
      subst e
      obtain ⟨ns, r, c⟩ := I
      obtain ⟨h', e1, r', m, _⟩ := replaceValue_spec r hi v
      have hv := validateIndex_spec r (.int i)
      rw [specPos_nat (by omega)] at hv
      have hv := hv.1
      have hns := r.length_eq
      have hne : ns ≠ [] := by rintro rfl; simp at hns; omega
      have f : Frame h h' (· ∈ ns) (· = l) :=
        m.frame.mono (fun a _ q => r.own_mem hne q) (fun _ _ q => q)
      refine ⟨h', ?_, ns, r', ?_⟩
      · cases k with
        | cll =>
          have hx : s.1.length ≠ 0 := by omega
          simpa [Act.call, setItem, run_bind, hv, validateItem, Idx.toNat, Idx.mod, r.lenobj, hx,
            Nat.mod_eq_of_lt hi] using e1
        | ll | dll =>
          have hne' : ¬ (Idx.int (i : Int) = Idx.int (s.1.length : Int)) := by
            rw [Idx.int_eq_len]; omega
          simp only [Act.call, setItem, run_bind, hv, validateItem, run_lift_ok, run_getList,
            r.lenobj, hne', if_false, Idx.toNat, Int.toNat_natCast, e1]
      · have := c.map (f := id) (h' := h') (ns' := ns) (fun p a ok => by
          cases p with
          | on i => exact ok
          | lost => trivial
          | off dead j =>
            obtain ⟨c1, c2, c0, ss, c3, c4, c5⟩ := ok
            exact ⟨c1, c2, c0, ss, dead_frame f c3 c4 c5 rfl (fun _ => Or.inl)⟩)
        have hid : s.2.map id = s.2 := by cases s.2 <;> rfl
        rwa [hid] at this
    · simp at e
  | delItem i =>
    simp only [Act.spec] at e
    split at e
    · rename_i hi
      simp only [Option.some.injEq] at e
      subst e
      obtain ⟨h', e1, I'⟩ := dropAt_ok I hi
      obtain ⟨ns, r, c⟩ := I
      exact ⟨h', by rw [Act.call, delItem_eq r hi]; exact e1, I'⟩
    · simp at e
  | removeFront =>
    simp only [Act.spec] at e
    by_cases hx : s.1 = []
    · simp only [hx, if_true, Option.some.injEq] at e
      subst e
      refine ⟨h, ?_, I⟩
      obtain ⟨ns, r, c⟩ := I
      simp [Act.call, removeFront, run_bind, isEmpty_spec r, hx]
    · simp only [hx, if_false, Option.some.injEq] at e
      subst e
      have hpos := List.length_pos_iff.2 hx
      obtain ⟨h', e1, I'⟩ := dropAt_ok I hpos
      refine ⟨h', ?_, I'⟩
      obtain ⟨ns, r, c⟩ := I
      have := delItem_eq r hpos
      simp only [Nat.cast_zero] at this
      simp only [Act.call, removeFront, run_bind, isEmpty_spec r, hx, decide_false,
        Bool.false_eq_true, if_false, this, e1]
  | removeEnd =>
    simp only [Act.spec] at e
    by_cases hx : s.1 = []
    · simp only [hx, if_true, Option.some.injEq] at e
      subst e
      refine ⟨h, ?_, I⟩
      obtain ⟨ns, r, c⟩ := I
      simp [Act.call, removeEnd, run_bind, isEmpty_spec r, hx]
    · simp only [hx, if_false, Option.some.injEq] at e
      subst e
      have hpos := List.length_pos_iff.2 hx
      have hl : s.1.length - 1 < s.1.length := by omega
      obtain ⟨h', e1, I'⟩ := dropAt_ok I hl
      refine ⟨h', ?_, I'⟩
      obtain ⟨ns, r, c⟩ := I
      have := delItem_eq r hl
      rw [show ((s.1.length - 1 : Nat) : Int) = (s.1.length : Int) - 1 by omega] at this
      simp only [Act.call, removeEnd, run_bind, isEmpty_spec r, hx, decide_false, run_getList,
        r.lenobj, Bool.false_eq_true, if_false, this, e1]
  | remove v all =>
    simp only [Act.spec, Option.some.injEq] at e
    subst e
    obtain ⟨ns, r, c⟩ := I
    obtain ⟨h', e1, I'⟩ := removeValueLoop_cur v all (it := it) ns.length ns [] (ys := [])
      (h.lobj l).head false rfl (by simpa using r) (by simpa using c) rfl r.head
    refine ⟨h', ?_, by simpa using I'⟩
    simp only [Act.call, remove, validateItem, run_bind, run_lift_ok, run_getList, r.len]
    exact e1
  | clear =>
    simp only [Act.spec, Option.some.injEq] at e
    subst e
    obtain ⟨ns, r, c⟩ := I
    obtain ⟨h', e1, r', _, _⟩ := clear_spec r
    refine ⟨h', e1, [], r', c.map (clear_ok r ?_ ?_)⟩
    · simp [clear, run_bind] at e1; rw [← e1]
      simp
    · simp [clear, run_bind] at e1; rw [← e1]
      simp

/-- a whole program -/
theorem acts_ok : ∀ (as : List (Act V)) {h : Heap V X} {s s' : List V × IterPos V} {it : Iter}
    {out : List (Step V)}, StateOK k h l s it → actsSpec k as s = some (out, s') →
    ∃ h' it', acts k l as h it = (out, h', it') ∧ StateOK k h' l s' it'
  | [], h, s, s', it, out, I, e => by
    simp only [actsSpec, Option.some.injEq, Prod.mk.injEq] at e
    obtain ⟨rfl, rfl⟩ := e
    exact ⟨h, it, rfl, I⟩
  | a :: as, h, s, s', it, out, I, e => by
    by_cases ha : a = .next
    · subst ha
      simp only [actsSpec] at e
      cases hn : s.2.next k s.1 with
      | none => rw [hn] at e; simp at e
      | some r =>
        rw [hn] at e
        simp only [Option.map_eq_some_iff] at e
        obtain ⟨q, e2, e3⟩ := e
        obtain ⟨ns, rp, c⟩ := I
        obtain ⟨it1, e4, c1⟩ := next_ok rp (st := r.1) (cur' := r.2) c hn
        obtain ⟨h', it', e5, I'⟩ := acts_ok as (s := (s.1, r.2)) (out := q.1) (s' := q.2)
          ⟨ns, rp, c1⟩ e2
        simp only [Prod.mk.injEq] at e3
        obtain ⟨rfl, rfl⟩ := e3
        exact ⟨h', it', by simp only [acts, e4, e5], I'⟩
    · have hstep : actsSpec k (a :: as) s = (match a.spec k s with
          | none => none
          | some s' => actsSpec k as s') := by
        cases a <;> first | exact absurd rfl ha | rfl
      have hrun : acts k l (a :: as) h it = acts k l as (a.call k l h).2 it := by
        cases a <;> first | exact absurd rfl ha | rfl
      rw [hstep] at e
      cases hs : a.spec k s with
      | none => rw [hs] at e; simp at e
      | some s1 =>
        rw [hs] at e
        obtain ⟨h1, e1, I1⟩ := act_ok I a hs
        obtain ⟨h', it', e2, I'⟩ := acts_ok as I1 e
        exact ⟨h', it', by rw [hrun, e1]; exact e2, I'⟩

/-! ## Comparison with Python's lists -/

/-- the cursor stands where the iterator of a Python list would -/
def Even (xs : List V) : IterPos V → Option Nat → Prop
  | .fresh, some n => n = 0
  | .over, none => True
  | .susp c (.on i), some n => n = c + 1 ∧ i = c ∧ c < xs.length
  | _, _ => False

theorem Even.grow {cur : IterPos V} {it : Option Nat} (e : Even xs cur it) {m : Nat}
    (hm : m ≤ xs.length) (hn : ∀ n, it = some n → n ≤ m) (v : V) :
    Even (putValue k m v (xs, cur)).1 (putValue k m v (xs, cur)).2 it := by
  have hl : (xs.insertIdx m v).length = xs.length + 1 := by
    rw [List.length_insertIdx, if_pos hm]
  cases cur with
  | fresh => cases it <;> simp_all [Even, putValue, IterPos.map]
  | over => cases it <;> simp_all [Even, putValue, IterPos.map]
  | susp c p =>
    cases p <;> cases it <;> simp only [Even] at e
    rename_i i n
    obtain ⟨rfl, rfl, h3⟩ := e
    have := hn _ rfl
    have hc : newCell k xs.length m = m := by unfold newCell; rw [if_neg (by omega)]
    have hg : (if i < m then i else i + 1) = i := if_pos (by omega)
    simp only [putValue, IterPos.map, Place.grow, hc, hg, Even]
    exact ⟨trivial, trivial, by omega⟩

theorem Even.shrink {cur : IterPos V} {it : Option Nat} (e : Even xs cur it) {m : Nat}
    (hm : m < xs.length) (hn : ∀ n, it = some n → n ≤ m) :
    Even (dropAt k m (xs, cur)).1 (dropAt k m (xs, cur)).2 it := by
  have hl : (xs.eraseIdx m).length = xs.length - 1 := List.length_eraseIdx_of_lt hm
  cases cur with
  | fresh => cases it <;> simp_all [Even, dropAt, IterPos.map]
  | over => cases it <;> simp_all [Even, dropAt, IterPos.map]
  | susp c p =>
    cases p <;> cases it <;> simp only [Even] at e
    rename_i i n
    obtain ⟨rfl, rfl, h3⟩ := e
    have := hn _ rfl
    have h1 : xs.length ≠ 1 := by omega
    have hd : deadCell k xs.length m = m := by unfold deadCell; rw [if_neg (by omega)]
    have hi : i ≠ m := by omega
    have hlt : i < m := by omega
    simp only [dropAt, h1, if_false, IterPos.map, Place.shrink, hd, hi, hlt, if_true, Even]
    exact ⟨trivial, trivial, by omega⟩

theorem Even.dropValue (v : V) (all : Bool) {it : Option Nat} : ∀ (rest pre : List V)
    {cur : IterPos V}, Even (pre ++ rest) cur it →
    (∀ n, it = some n → n ≤ pre.length + rest.idxOf v) →
    (Extra.dropValue k v all pre.length rest (pre ++ rest, cur)).1 =
      pre ++ (if all then rest.filter (fun x => decide (x ≠ v)) else rest.erase v) ∧
    Even (Extra.dropValue k v all pre.length rest (pre ++ rest, cur)).1
      (Extra.dropValue k v all pre.length rest (pre ++ rest, cur)).2 it
  | [], pre, cur, e, _ => ⟨by cases all <;> simp [Extra.dropValue], e⟩
  | z :: rest, pre, cur, e, hn => by
    by_cases hz : z = v
    · subst hz
      have hm : pre.length < (pre ++ z :: rest).length := by simp
      have e1 := e.shrink (k := k) hm (by simpa using hn)
      have he : (dropAt k pre.length (pre ++ z :: rest, cur)).1 = pre ++ rest := by
        simp only [dropAt]
        rw [List.eraseIdx_append_of_length_le (Nat.le_refl _)]; simp
      have hpair : dropAt k pre.length (pre ++ z :: rest, cur) =
          (pre ++ rest, (dropAt k pre.length (pre ++ z :: rest, cur)).2) := Prod.ext he rfl
      cases all with
      | false =>
        simp only [Extra.dropValue, if_true, Bool.false_eq_true, if_false, List.erase_cons_head]
        exact ⟨he, e1⟩
      | true =>
        rw [he] at e1
        have := Even.dropValue z true rest pre e1 (fun n q => by
          have := hn n q; simp only [List.idxOf_cons_self, Nat.add_zero] at this; omega)
        simp only [Extra.dropValue, if_true]
        rw [hpair]
        simpa using this
    · have e' : pre ++ z :: rest = (pre ++ [z]) ++ rest := by simp
      rw [e'] at e
      have := Even.dropValue v all rest (pre ++ [z]) e (fun n q => by
        have := hn n q
        have hx : (z :: rest).idxOf v = rest.idxOf v + 1 := by
          have hb : (z == v) = false := beq_eq_false_iff_ne.2 hz
          rw [List.idxOf_cons, hb]; rfl
        rw [hx] at this
        simp only [List.length_append, List.length_singleton]; omega)
      simp only [Extra.dropValue, hz, if_false]
      cases all <;> simpa [hz, List.erase_cons] using this

theorem Even.act {cur : IterPos V} {it : Option Nat} (e : Even xs cur it) {a : Act V}
    (ha : a ≠ .next) (hn : ∀ n, it = some n → n ≤ a.from xs) {xs' : List V}
    (hv : a.values xs = some xs') :
    ∃ cur', a.spec k (xs, cur) = some (xs', cur') ∧ Even xs' cur' it := by
  cases a with
  | next => exact absurd rfl ha
  | insert i v =>
    simp only [Act.values] at hv
    split at hv
    · rename_i hi
      simp only [Option.some.injEq] at hv
      subst hv
      exact ⟨_, by simp only [Act.spec, hi, if_true]; rfl, e.grow hi hn _⟩
    · simp at hv
  | addFront v =>
    simp only [Act.values, Option.some.injEq] at hv
    subst hv
    exact ⟨_, rfl, by simpa [putValue] using e.grow (k := k) (Nat.zero_le _) hn (PyData.norm v)⟩
  | addEnd v =>
    simp only [Act.values, Option.some.injEq] at hv
    subst hv
    have hx : xs.insertIdx xs.length (PyData.norm v) = xs ++ [PyData.norm v] := by
      simp
    refine ⟨(putValue k xs.length (PyData.norm v) (xs, cur)).2, by simp only [Act.spec, putValue, hx], ?_⟩
    have := e.grow (k := k) (Nat.le_refl _) hn (PyData.norm v)
    simpa [putValue, hx] using this
  | setItem i v =>
    simp only [Act.values] at hv
    split at hv
    · rename_i hi
      simp only [Option.some.injEq] at hv
      subst hv
      refine ⟨cur, by simp only [Act.spec, hi, if_true], ?_⟩
      cases cur with
      | fresh => cases it <;> simp_all [Even]
      | over => cases it <;> simp_all [Even]
      | susp c p =>
        cases p <;> cases it <;> simp_all [Even]
    · simp at hv
  | delItem i =>
    simp only [Act.values] at hv
    split at hv
    · rename_i hi
      simp only [Option.some.injEq] at hv
      subst hv
      exact ⟨_, by simp only [Act.spec, hi, if_true]; rfl, e.shrink hi hn⟩
    · simp at hv
  | removeFront =>
    simp only [Act.values, Option.some.injEq] at hv
    subst hv
    by_cases hx : xs = []
    · subst hx; exact ⟨cur, rfl, e⟩
    · have := e.shrink (k := k) (List.length_pos_iff.2 hx) hn
      refine ⟨(dropAt k 0 (xs, cur)).2, ?_, ?_⟩
      · simp only [Act.spec, hx, if_false, Option.some.injEq]
        exact Prod.ext (by simp [dropAt]) rfl
      · simpa [dropAt] using this
  | removeEnd =>
    simp only [Act.values, Option.some.injEq] at hv
    subst hv
    by_cases hx : xs = []
    · subst hx; exact ⟨cur, rfl, e⟩
    · have hpos := List.length_pos_iff.2 hx
      have := e.shrink (k := k) (m := xs.length - 1) (by omega) hn
      have hd : xs.eraseIdx (xs.length - 1) = xs.dropLast := List.eraseIdx_length_sub_one
      refine ⟨(dropAt k (xs.length - 1) (xs, cur)).2, ?_, ?_⟩
      · simp only [Act.spec, hx, if_false, Option.some.injEq]
        exact Prod.ext hd rfl
      · have h1 : (dropAt k (xs.length - 1) (xs, cur)).1 = xs.dropLast := hd
        rwa [h1] at this
  | remove v all =>
    simp only [Act.values, Option.some.injEq] at hv
    subst hv
    obtain ⟨h1, h2⟩ := Even.dropValue (k := k) v all xs [] (cur := cur) e
      (by simpa [Act.from] using hn)
    simp only [List.nil_append, List.length_nil] at h1 h2
    rw [h1] at h2
    exact ⟨_, by simp only [Act.spec, Option.some.injEq]; exact Prod.ext h1 rfl, h2⟩
  | clear =>
    simp only [Act.values, Option.some.injEq] at hv
    subst hv
    refine ⟨cur.map (Place.clear k xs), rfl, ?_⟩
    cases cur with
    | fresh => cases it <;> simp_all [Even, IterPos.map]
    | over => cases it <;> simp_all [Even, IterPos.map]
    | susp c p =>
      cases p <;> cases it <;> simp only [Even] at e
      have := hn _ rfl
      simp only [Act.from] at this
      omega

theorem Even.next {cur : IterPos V} {it : Option Nat} (e : Even xs cur it) :
    ∃ cur', cur.next k xs = some ((pyNext xs it).1, cur') ∧ Even xs cur' (pyNext xs it).2 := by
  have go : ∀ j, j < xs.length → ∃ cur', goTo xs j j = ((pyNext xs (some j)).1, cur') ∧
      Even xs cur' (pyNext xs (some j)).2 := by
    intro j hj
    simp only [goTo, pyNext, List.getElem?_eq_getElem hj]
    exact ⟨_, rfl, rfl, rfl, hj⟩
  cases cur with
  | fresh =>
    cases it <;> simp only [Even] at e
    subst e
    by_cases hx : xs = []
    · subst hx; exact ⟨.over, rfl, trivial⟩
    · obtain ⟨c, h1, h2⟩ := go 0 (List.length_pos_iff.2 hx)
      exact ⟨c, by simp only [IterPos.next, hx, if_false, h1], h2⟩
  | over =>
    cases it <;> simp only [Even] at e
    exact ⟨.over, rfl, trivial⟩
  | susp c p =>
    cases p <;> cases it <;> simp only [Even] at e
    rename_i i n
    obtain ⟨rfl, rfl, h3⟩ := e
    by_cases hx : xs.length ≤ i + 1
    · have : xs[i + 1]? = none := by rw [List.getElem?_eq_none_iff]; omega
      exact ⟨.over, by simp [IterPos.next, hx, pyNext, this], by simp [pyNext, this, Even]⟩
    · have hc : cellAfter k xs.length i = i + 1 := by unfold cellAfter; rw [if_neg (by omega)]
      obtain ⟨c, h1, h2⟩ := go (i + 1) (by omega)
      exact ⟨c, by simp only [IterPos.next, hx, if_false, hc, h1], h2⟩

theorem py_acts : ∀ (as : List (Act V)) {xs : List V} {cur : IterPos V} {it : Option Nat}
    {out : List (Step V)}, Even xs cur it → Ahead as (xs, it) → pyActs as (xs, it) = some out →
    ∃ s', actsSpec k as (xs, cur) = some (out, s')
  | [], xs, cur, it, out, _, _, hp => by
    simp only [pyActs, Option.some.injEq] at hp
    subst hp; exact ⟨_, rfl⟩
  | a :: as, xs, cur, it, out, e, hA, hp => by
    by_cases ha : a = .next
    · subst ha
      obtain ⟨cur', h1, h2⟩ := e.next (k := k)
      simp only [pyActs, Option.map_eq_some_iff] at hp
      obtain ⟨o, hp, rfl⟩ := hp
      obtain ⟨s', h3⟩ := py_acts as h2 hA hp
      exact ⟨s', by simp only [actsSpec, h1, h3, Option.map_some]⟩
    · have h1 : (∀ n, it = some n → n ≤ a.from xs) ∧
          ∀ xs', a.values xs = some xs' → Ahead as (xs', it) := by
        cases a <;> first | exact absurd rfl ha | exact hA
      have h2 : pyActs (a :: as) (xs, it) = (match a.values xs with
          | none => none
          | some xs' => pyActs as (xs', it)) := by
        cases a <;> first | exact absurd rfl ha | rfl
      have h3 : actsSpec k (a :: as) (xs, cur) = (match a.spec k (xs, cur) with
          | none => none
          | some s' => actsSpec k as s') := by
        cases a <;> first | exact absurd rfl ha | rfl
      rw [h2] at hp
      cases hv : a.values xs with
      | none => rw [hv] at hp; simp at hp
      | some xs' =>
        rw [hv] at hp
        obtain ⟨cur', h4, h5⟩ := e.act (k := k) ha h1.1 hv
        obtain ⟨s', h6⟩ := py_acts as h5 (h1.2 xs' hv) hp
        exact ⟨s', by rw [h3, h4]; exact h6⟩

/-! ## Loops that grow the list -/

theorem py_nexts {V : Type} [PyData V] (xs : List V) : ∀ (n j : Nat), j + n = xs.length →
    pyActs (List.replicate (n + 1) .next) (xs, some j) =
      some ((xs.drop j).map (fun v => .item (some v)) ++ [.stop]) ∧
    Ahead (List.replicate (n + 1) (.next : Act V)) (xs, some j)
  | 0, j, h => by
    have hj : xs[j]? = none := by rw [List.getElem?_eq_none_iff]; omega
    have hd : xs.drop j = [] := List.drop_eq_nil_of_le (by omega)
    simp [pyActs, Ahead, pyNext, hj, hd]
  | n + 1, j, h => by
    have hlt : j < xs.length := by omega
    have hj : xs[j]? = some xs[j] := List.getElem?_eq_getElem hlt
    obtain ⟨h1, h2⟩ := py_nexts xs n (j + 1) (by omega)
    have hd : xs.drop j = xs[j] :: xs.drop (j + 1) := List.drop_eq_getElem_cons hlt
    rw [List.replicate_succ]
    refine ⟨?_, ?_⟩
    · simp only [pyActs, pyNext, hj, h1, hd, Option.map_some, List.map_cons, List.cons_append]
    · simp only [Ahead, pyNext, hj]; exact h2

theorem py_addEnd {V : Type} [PyData V] (v : V) : ∀ (n j : Nat) (xs : List V), j < xs.length →
    pyActs (rounds (.addEnd v) n) (xs, some j) =
      some ((((xs ++ List.replicate n (PyData.norm v)).drop j).take (n + 1)).map
        (fun v => .item (some v))) ∧
    Ahead (rounds (.addEnd v) n) (xs, some j)
  | 0, j, xs, hlt => by
    have hj : xs[j]? = some xs[j] := List.getElem?_eq_getElem hlt
    have hd : xs.drop j = xs[j] :: xs.drop (j + 1) := List.drop_eq_getElem_cons hlt
    refine ⟨?_, ?_⟩
    · simp only [rounds, pyActs, pyNext, hj, List.replicate_zero, List.append_nil, hd,
        Option.map_some, List.take_succ_cons, List.take_zero, List.map_cons, List.map_nil]
    · simp only [rounds, Ahead]
  | n + 1, j, xs, hlt => by
    have hj : xs[j]? = some xs[j] := List.getElem?_eq_getElem hlt
    obtain ⟨h1, h2⟩ := py_addEnd v n (j + 1) (xs ++ [PyData.norm v]) (by simpa using hlt)
    refine ⟨?_, ?_⟩
    · simp only [rounds, pyActs, pyNext, hj, Act.values, h1, Option.map_some]
      have hlt' : j < (xs ++ List.replicate (n + 1) (PyData.norm v)).length := by
        rw [List.length_append]; omega
      rw [List.drop_eq_getElem_cons hlt', List.getElem_append_left hlt, List.take_succ_cons,
        List.map_cons, List.replicate_succ, List.append_assoc, List.singleton_append]
    · simp only [rounds, Ahead, pyNext, hj, Act.values, Option.some.injEq, Act.from]
      refine ⟨fun m hm => by omega, ?_⟩
      rintro _ rfl; exact h2

theorem spec_addFront {V : Type} [PyData V] {k : Kind} (hk : k ≠ .cll) (v : V) (xs : List V) :
    ∀ (n j : Nat), 0 < j → j + n = xs.length →
    ∃ q, actsSpec k (rounds (.addFront v) n)
      (List.replicate j (PyData.norm v) ++ xs, .susp (j - 1) (.on (2 * j - 1))) =
      some ((xs.drop j).map (fun v => .item (some v)) ++ [.raised .attributeError], q)
  | 0, j, h0, h => by
    have hd : xs.drop j = [] := List.drop_eq_nil_of_le (by omega)
    have hc : cellAfter k (List.replicate j (PyData.norm v) ++ xs).length (2 * j - 1) = 2 * j := by
      unfold cellAfter; rw [if_neg (fun q => hk q.1)]; omega
    have hg : (List.replicate j (PyData.norm v) ++ xs)[2 * j]? = none := by
      rw [List.getElem?_eq_none_iff]; simp; omega
    have hl : ¬ (List.replicate j (PyData.norm v) ++ xs).length ≤ j - 1 + 1 := by simp; omega
    exact ⟨(List.replicate j (PyData.norm v) ++ xs, .over), by
      simp only [rounds, actsSpec, IterPos.next, hl, if_false, hc, goTo, hg, hd,
      Option.map_some, List.map_nil, List.nil_append]⟩
  | n + 1, j, h0, h => by
    have hlt : j < xs.length := by omega
    have hd : xs.drop j = xs[j] :: xs.drop (j + 1) := List.drop_eq_getElem_cons hlt
    have hc : cellAfter k (List.replicate j (PyData.norm v) ++ xs).length (2 * j - 1) = 2 * j := by
      unfold cellAfter; rw [if_neg (fun q => hk q.1)]; omega
    have hg : (List.replicate j (PyData.norm v) ++ xs)[2 * j]? = some xs[j] := by
      rw [List.getElem?_append_right (by simp; omega), List.length_replicate,
        show 2 * j - j = j by omega, List.getElem?_eq_getElem hlt]
    have hl : ¬ (List.replicate j (PyData.norm v) ++ xs).length ≤ j - 1 + 1 := by simp; omega
    have hn : ∀ m, newCell k m 0 = 0 := fun m => by
      unfold newCell; rw [if_neg (fun q => hk q.1)]
    obtain ⟨q, hq⟩ := spec_addFront hk v xs n (j + 1) (by omega) (by omega)
    refine ⟨q, ?_⟩
    simp only [rounds, actsSpec, IterPos.next, hl, if_false, hc, goTo, hg, hd, Act.spec, putValue,
      List.insertIdx_zero, IterPos.map, Place.grow, hn, Nat.not_lt_zero]
    rw [← List.cons_append, ← List.replicate_succ, show j - 1 + 1 = j + 1 - 1 by omega,
      show 2 * j + 1 = 2 * (j + 1) - 1 by omega, hq]
    rfl

/-! ## The specification covers every program over a list that is not circular -/

/-- the cursor is somewhere we keep track of -/
def IterPos.Known : IterPos V → Prop
  | .susp _ .lost => False
  | _ => True

theorem Known.put (m : Nat) (v : V) {cur : IterPos V} (hc : cur.Known) :
    (putValue k m v (xs, cur)).2.Known := by
  cases cur with
  | susp c p => cases p <;> simp_all [IterPos.Known, putValue, IterPos.map, Place.grow]
  | _ => trivial

theorem Known.clear (hk : k ≠ .cll) {cur : IterPos V} (hc : cur.Known) :
    (cur.map (Place.clear k xs)).Known := by
  cases cur with
  | susp c p => cases p <;> simp_all [IterPos.Known, IterPos.map, Place.clear]
  | _ => trivial

theorem Known.drop (hk : k ≠ .cll) (m : Nat) {cur : IterPos V} (hc : cur.Known) :
    (dropAt k m (xs, cur)).2.Known := by
  by_cases h1 : xs.length = 1
  · simp only [dropAt, h1, if_true]; exact Known.clear hk hc
  · simp only [dropAt, h1, if_false]
    cases cur with
    | susp c p =>
      cases p with
      | on i => simp only [IterPos.map, Place.shrink]; split <;> trivial
      | off dead j => simp only [IterPos.map, Place.shrink]; split <;> trivial
      | lost => exact hc
    | _ => trivial

theorem Known.dropValue (hk : k ≠ .cll) (v : V) (all : Bool) : ∀ (rest pre : List V)
    {cur : IterPos V}, cur.Known →
    (Extra.dropValue k v all pre.length rest (pre ++ rest, cur)).1 =
      pre ++ (if all then rest.filter (fun x => decide (x ≠ v)) else rest.erase v) ∧
    (Extra.dropValue k v all pre.length rest (pre ++ rest, cur)).2.Known
  | [], pre, cur, hc => ⟨by cases all <;> simp [Extra.dropValue], hc⟩
  | z :: rest, pre, cur, hc => by
    by_cases hz : z = v
    · subst hz
      have e1 := Known.drop (xs := pre ++ z :: rest) hk pre.length hc
      have he : (dropAt k pre.length (pre ++ z :: rest, cur)).1 = pre ++ rest := by
        simp only [dropAt]
        rw [List.eraseIdx_append_of_length_le (Nat.le_refl _)]; simp
      have hpair : dropAt k pre.length (pre ++ z :: rest, cur) =
          (pre ++ rest, (dropAt k pre.length (pre ++ z :: rest, cur)).2) := Prod.ext he rfl
      cases all with
      | false =>
        simp only [Extra.dropValue, if_true, Bool.false_eq_true, if_false, List.erase_cons_head]
        exact ⟨he, e1⟩
      | true =>
        have := Known.dropValue hk z true rest pre e1
        simp only [Extra.dropValue, if_true]
        rw [hpair]
        simpa using this
    · have e' : pre ++ z :: rest = (pre ++ [z]) ++ rest := by simp
      have := Known.dropValue hk v all rest (pre ++ [z]) hc
      simp only [Extra.dropValue, hz, if_false]
      cases all <;> simpa [hz, List.erase_cons] using this

theorem Known.act (hk : k ≠ .cll) {cur : IterPos V} (hc : cur.Known) {a : Act V} {xs' : List V}
    (hv : a.values xs = some xs') :
    ∃ cur', a.spec k (xs, cur) = some (xs', cur') ∧ cur'.Known := by
  cases a with
  | next =>
    simp only [Act.values, Option.some.injEq] at hv
    subst hv; exact ⟨cur, rfl, hc⟩
  | insert i v =>
    simp only [Act.values] at hv
    split at hv
    · rename_i hi
      simp only [Option.some.injEq] at hv
      subst hv
      exact ⟨_, by simp only [Act.spec, hi, if_true]; rfl,
        Known.put i (PyData.norm v) hc⟩
    · simp at hv
  | addFront v =>
    simp only [Act.values, Option.some.injEq] at hv
    subst hv
    exact ⟨_, rfl, Known.put (xs := xs) 0 (PyData.norm v) hc⟩
  | addEnd v =>
    simp only [Act.values, Option.some.injEq] at hv
    subst hv
    refine ⟨(putValue k xs.length (PyData.norm v) (xs, cur)).2, ?_, Known.put _ _ hc⟩
    simp [Act.spec, putValue]
  | setItem i v =>
    simp only [Act.values] at hv
    split at hv
    · rename_i hi
      simp only [Option.some.injEq] at hv
      subst hv
      exact ⟨cur, by simp only [Act.spec, hi, if_true], hc⟩
    · simp at hv
  | delItem i =>
    simp only [Act.values] at hv
    split at hv
    · rename_i hi
      simp only [Option.some.injEq] at hv
      subst hv
      exact ⟨_, by simp only [Act.spec, hi, if_true]; rfl, Known.drop hk _ hc⟩
    · simp at hv
  | removeFront =>
    simp only [Act.values, Option.some.injEq] at hv
    subst hv
    by_cases hx : xs = []
    · subst hx; exact ⟨cur, rfl, hc⟩
    · refine ⟨(dropAt k 0 (xs, cur)).2, ?_, Known.drop hk _ hc⟩
      simp only [Act.spec, hx, if_false, Option.some.injEq]
      exact Prod.ext (by simp [dropAt]) rfl
  | removeEnd =>
    simp only [Act.values, Option.some.injEq] at hv
    subst hv
    by_cases hx : xs = []
    · subst hx; exact ⟨cur, rfl, hc⟩
    · refine ⟨(dropAt k (xs.length - 1) (xs, cur)).2, ?_, Known.drop hk _ hc⟩
      simp only [Act.spec, hx, if_false, Option.some.injEq]
      exact Prod.ext List.eraseIdx_length_sub_one rfl
  | remove v all =>
    simp only [Act.values, Option.some.injEq] at hv
    subst hv
    obtain ⟨h1, h2⟩ := Known.dropValue hk v all xs [] hc
    simp only [List.nil_append, List.length_nil] at h1 h2
    exact ⟨_, by simp only [Act.spec, Option.some.injEq]; exact Prod.ext h1 rfl, h2⟩
  | clear =>
    simp only [Act.values, Option.some.injEq] at hv
    subst hv
    exact ⟨cur.map (Place.clear k xs), rfl, Known.clear hk hc⟩

theorem Known.next {cur : IterPos V} (hc : cur.Known) :
    ∃ r, cur.next k xs = some r ∧ r.2.Known := by
  have go : ∀ c j, (goTo xs c j).2.Known := fun c j => by
    unfold goTo; split <;> trivial
  cases cur with
  | fresh =>
    refine ⟨_, rfl, ?_⟩
    split
    · trivial
    · exact go _ _
  | over => exact ⟨_, rfl, trivial⟩
  | susp c p =>
    simp only [IterPos.next]
    split
    · exact ⟨_, rfl, trivial⟩
    · cases p with
      | on i => exact ⟨_, rfl, go _ _⟩
      | off dead j =>
        cases dead with
        | nil => exact ⟨_, rfl, go _ _⟩
        | cons v dead => exact ⟨_, rfl, trivial⟩
      | lost => exact absurd hc (by simp [IterPos.Known])

theorem spec_total (hk : k ≠ .cll) : ∀ (as : List (Act V)) {xs : List V} {cur : IterPos V}
    {it : Option Nat}, cur.Known → pyActs as (xs, it) ≠ none → actsSpec k as (xs, cur) ≠ none
  | [], xs, cur, it, _, _ => by simp [actsSpec]
  | a :: as, xs, cur, it, hc, hp => by
    by_cases ha : a = .next
    · subst ha
      obtain ⟨r, h1, h2⟩ := Known.next (k := k) (xs := xs) hc
      simp only [pyActs, ne_eq, Option.map_eq_none_iff] at hp
      simp only [actsSpec, h1, ne_eq, Option.map_eq_none_iff]
      exact spec_total hk as h2 hp
    · have h2 : pyActs (a :: as) (xs, it) = (match a.values xs with
          | none => none
          | some xs' => pyActs as (xs', it)) := by
        cases a <;> first | exact absurd rfl ha | rfl
      have h3 : actsSpec k (a :: as) (xs, cur) = (match a.spec k (xs, cur) with
          | none => none
          | some s' => actsSpec k as s') := by
        cases a <;> first | exact absurd rfl ha | rfl
      rw [h2] at hp
      cases hv : a.values xs with
      | none => rw [hv] at hp; simp at hp
      | some xs' =>
        rw [hv] at hp
        obtain ⟨cur', h4, h5⟩ := Known.act (k := k) hk hc hv
        rw [h3, h4]
        exact spec_total hk as h5 hp

end Extra
