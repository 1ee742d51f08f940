import Verif.Trees.TreapMean
import Verif.Trees.SearchMeanProofs
import Verif.Props.Treap

/-!
# Lemmas about treaps with random priorities
-/

set_option linter.unusedSectionVars false

namespace Extra
variable {N P : Type} [LinearOrder N] [LinearOrder P]

theorem execs_draw (m1 : P) : ∀ (vs : List (N × P)) (t : Bst N P),
    treapExecs m1 (drawOps vs) t =
      treapExecs m1 (vs.map fun v => .insert (.num v.1) (.num v.2)) t
  | [], _ => rfl
  | v :: vs, t => by
    simp only [drawOps, List.map_cons, treapExecs]
    have e : treapExec m1 t (.insert (.num v.1) (.none v.2)) =
        treapExec m1 t (.insert (.num v.1) (.num v.2)) := rfl
    rw [e]
    congr 1
    funext x
    have := execs_draw m1 vs x.2
    unfold drawOps at this
    rw [this]

theorem treapAfter_ok (m1 : P) (vs : List (N × P)) :
    ∃ rs, treapExecs m1 (drawOps vs) Bst.empty = .ok (rs, treapAfter m1 vs) := by
  obtain ⟨t, e, -⟩ := C50_inserts m1 (drawOps vs) (by simp [drawOps])
  exact ⟨_, by rw [treapAfter, e]⟩

theorem treapAfter_of (m1 : P) (vs : List (N × P)) (hd : (vs.map Prod.fst).Nodup) :
    ∃ m, TreapOf (treapAfter m1 vs) m ∧ m.Perm vs := by
  obtain ⟨t, e, h⟩ := C50_inserts m1 (vs.map fun v => .insert (.num v.1) (.num v.2)) (by simp)
  have e' : treapAfter m1 vs = t := by rw [treapAfter, execs_draw, e]
  refine ⟨_, e' ▸ h, ?_⟩
  simpa using inserts_perm vs [] (by simpa using hd)

/-! ## Inserting by decreasing priorities -/

theorem bstOf_inorder : ∀ (n : Nat) (ps : List (N × P)), ps.length ≤ n → (ps.map Prod.fst).Nodup →
    (bstOf ps .nil).inorder.Perm ps ∧ (bstOf ps .nil).keys.Pairwise (· < ·)
  | _, [], _, _ => by simp [bstOf, BTree.keys]
  | 0, v :: ps, hn, _ => by simp at hn
  | n + 1, v :: ps, hn, hd => by
    rw [List.map_cons, List.nodup_cons] at hd
    have hne : ∀ u ∈ ps, u.1 ≠ v.1 := fun u hu e => hd.1 (e ▸ List.mem_map_of_mem hu)
    have hle : ∀ q : N × P → Bool, (ps.filter q).length ≤ n := fun q =>
      (List.length_filter_le _ _).trans (by simp at hn; omega)
    have hnd : ∀ q : N × P → Bool, ((ps.filter q).map Prod.fst).Nodup := fun q =>
      hd.2.sublist (List.filter_sublist.map _)
    obtain ⟨p1, s1⟩ := bstOf_inorder n _ (hle fun u => u.1 < v.1) (hnd _)
    obtain ⟨p2, s2⟩ := bstOf_inorder n _ (hle fun u => v.1 < u.1) (hnd _)
    rw [bstOf_cons v ps hne]
    have split : ps.Perm (ps.filter (fun u => u.1 < v.1) ++ ps.filter (fun u => v.1 < u.1)) := by
      have e : ps.filter (fun u => decide (v.1 < u.1)) = ps.filter (fun u => !decide (u.1 < v.1)) := by
        refine List.filter_congr fun u hu => ?_
        rcases lt_trichotomy u.1 v.1 with h | h | h
        · simp [h, h.le]
        · exact absurd h (hne u hu)
        · simp [h, h.le]
      rw [e]
      exact (List.filter_append_perm _ ps).symm
    refine ⟨?_, ?_⟩
    · simp only [BTree.inorder, List.append_assoc, List.singleton_append]
      refine List.perm_middle.trans (List.Perm.cons _ ?_)
      exact (p1.append p2).trans split.symm
    · refine sorted_node.2 ⟨s1, s2, ?_, ?_⟩
      · intro x hx
        obtain ⟨u, hu, rfl⟩ := List.mem_map.1 hx
        have := (List.mem_filter.1 (p1.subset hu)).2
        simpa using this
      · intro x hx
        obtain ⟨u, hu, rfl⟩ := List.mem_map.1 hx
        have := (List.mem_filter.1 (p2.subset hu)).2
        simpa using this

theorem topLe_of_mem {t : BTree (N × P)} {q : P} (h : ∀ x ∈ t.inorder, x.2 ≤ q) : topLe t q := by
  cases t with
  | nil => simp
  | node l w r => rw [topLe_node]; exact h w (by simp)

theorem bstOf_heap : ∀ (n : Nat) (ps : List (N × P)), ps.length ≤ n → (ps.map Prod.fst).Nodup →
    ps.Pairwise (fun a b => b.2 < a.2) → heapI (bstOf ps .nil)
  | _, [], _, _, _ => by simp [bstOf, heapI]
  | 0, v :: ps, hn, _, _ => by simp at hn
  | n + 1, v :: ps, hn, hd, hp => by
    rw [List.map_cons, List.nodup_cons] at hd
    rw [List.pairwise_cons] at hp
    have hne : ∀ u ∈ ps, u.1 ≠ v.1 := fun u hu e => hd.1 (e ▸ List.mem_map_of_mem hu)
    have hle : ∀ q : N × P → Bool, (ps.filter q).length ≤ n := fun q =>
      (List.length_filter_le _ _).trans (by simp at hn; omega)
    have hnd : ∀ q : N × P → Bool, ((ps.filter q).map Prod.fst).Nodup := fun q =>
      hd.2.sublist (List.filter_sublist.map _)
    rw [bstOf_cons v ps hne]
    refine ⟨bstOf_heap n _ (hle _) (hnd _) (hp.2.filter _), bstOf_heap n _ (hle _) (hnd _) (hp.2.filter _),
      topLe_of_mem fun x hx => ?_, topLe_of_mem fun x hx => ?_⟩
    · exact (hp.1 x (List.mem_of_mem_filter ((bstOf_inorder n _ (hle _) (hnd _)).1.subset hx))).le
    · exact (hp.1 x (List.mem_of_mem_filter ((bstOf_inorder n _ (hle _) (hnd _)).1.subset hx))).le

/-- two lists of pairs with increasing numbers and the same pairs are equal -/
theorem sorted_pairs_eq {a b : List (N × P)} (h : a.Perm b) (ha : (a.map Prod.fst).Pairwise (· < ·))
    (hb : (b.map Prod.fst).Pairwise (· < ·)) : a = b := by
  rw [List.pairwise_map] at ha hb
  exact h.eq_of_pairwise (fun x y _ _ h1 h2 => absurd (h1.trans h2) (lt_irrefl _)) ha hb

theorem treapAfter_eq (m1 : P) {vs ws : List (N × P)} (hp : vs.Perm ws) (hd : (vs.map Prod.fst).Nodup)
    (hw : ws.Pairwise (fun a b => b.2 < a.2)) : (treapAfter m1 vs).root = bstOf ws .nil := by
  obtain ⟨m, h, pm⟩ := treapAfter_of m1 vs hd
  have hdw : (ws.map Prod.fst).Nodup := (hp.map _).nodup_iff.1 hd
  obtain ⟨pw, sw⟩ := bstOf_inorder _ ws le_rfl hdw
  refine treap_unique _ _ ((heapI_iff _).2 h.heap) (bstOf_heap _ ws le_rfl hdw hw) ?_ ?_
  · refine sorted_pairs_eq ?_ h.search sw
    rw [h.pairs]
    exact pm.trans (hp.trans pw.symm)
  · rw [h.pairs]
    have : ws.Pairwise (fun a b => a.2 ≠ b.2) := hw.imp fun h => h.ne'
    exact ((pm.trans hp).pairwise_iff (fun h => h.symm)).2 this

/-! ## The priorities in every order -/

/-- the priority beside a number -/
def prioIn (L : List (N × P)) (d : P) (v : N) : P := ((L.find? (fun w => w.1 = v)).map Prod.snd).getD d

theorem prioIn_mem {L : List (N × P)} (d : P) (hd : (L.map Prod.fst).Nodup) {w : N × P} (hw : w ∈ L) :
    prioIn L d w.1 = w.2 := by
  induction L with
  | nil => simp at hw
  | cons a L ih =>
    rw [List.map_cons, List.nodup_cons] at hd
    rcases List.mem_cons.1 hw with rfl | hw
    · simp [prioIn]
    · have : a.1 ≠ w.1 := fun e => hd.1 (e ▸ List.mem_map_of_mem hw)
      rw [prioIn, List.find?_cons_of_neg (by simpa using this)]
      exact ih hd.2 hw

theorem zip_prioIn {L : List (N × P)} (d : P) (hd : (L.map Prod.fst).Nodup) {vs : List N}
    (hv : vs.Perm (L.map Prod.fst)) : (vs.zip (vs.map (prioIn L d))).Perm L := by
  have e : vs.zip (vs.map (prioIn L d)) = vs.map (fun v => (v, prioIn L d v)) := by
    have := List.zip_map' (f := fun v : N => v) (g := prioIn L d) (l := vs)
    rwa [List.map_id'] at this
  rw [e]
  refine (hv.map _).trans ?_
  rw [List.map_map]
  refine List.Perm.of_eq ?_
  conv_rhs => rw [← List.map_id L]
  refine List.map_congr_left fun w hw => ?_
  simp [prioIn_mem d hd hw]

/-- the priorities the numbers `vs` have when the numbers in the order `p` have the priorities `ds` -/
def spread (d : P) (vs : List N) (ds : List P) (p : List N) : List P := vs.map (prioIn (p.zip ds) d)

section
variable {vs : List N} {ds : List P} (d : P) (hv : vs.Nodup) (hl : vs.length = ds.length)

include hv hl

theorem spread_zip {p : List N} (hp : p.Perm vs) : (vs.zip (spread d vs ds p)).Perm (p.zip ds) := by
  have e : (p.zip ds).map Prod.fst = p := List.map_fst_zip (by rw [hp.length_eq, hl])
  refine zip_prioIn d ?_ ?_ <;> rw [e]
  · exact hp.nodup_iff.2 hv
  · exact hp.symm

theorem spread_perm {p : List N} (hp : p.Perm vs) : (spread d vs ds p).Perm ds := by
  have h := (spread_zip d hv hl hp).map Prod.snd
  rwa [List.map_snd_zip (by simp [spread]), List.map_snd_zip (by rw [hp.length_eq, hl])] at h

theorem spread_inj (hd : ds.Pairwise (fun a b => b < a)) {p p' : List N} (hp : p.Perm vs) (hp' : p'.Perm vs)
    (e : spread d vs ds p = spread d vs ds p') : p = p' := by
  have h := spread_zip d hv hl hp
  rw [e] at h
  have k := h.symm.trans (spread_zip d hv hl hp')
  have dec : ∀ q : List N, q.Perm vs → (q.zip ds).Pairwise (fun a b => b.2 < a.2) := by
    intro q hq
    rw [← List.pairwise_map (f := Prod.snd) (R := fun a b => b < a),
      List.map_snd_zip (by rw [hq.length_eq, hl])]
    exact hd
  have := k.eq_of_pairwise (fun x y _ _ h1 h2 => absurd (h1.trans h2) (lt_irrefl _)) (dec p hp) (dec p' hp')
  have := congrArg (List.map Prod.fst) this
  rwa [List.map_fst_zip (by rw [hp.length_eq, hl]), List.map_fst_zip (by rw [hp'.length_eq, hl])] at this

theorem spread_all (hd : ds.Pairwise (fun a b => b < a)) :
    (vs.permutations.map (spread d vs ds)).Perm ds.permutations := by
  have nd : (vs.permutations.map (spread d vs ds)).Nodup :=
    List.Nodup.map_on (fun p hp p' hp' e => spread_inj d hv hl hd (List.mem_permutations.1 hp)
      (List.mem_permutations.1 hp') e) (List.nodup_permutations vs hv)
  refine (List.subperm_of_subset nd ?_).perm_of_length_le ?_
  · intro q hq
    obtain ⟨p, hp, rfl⟩ := List.mem_map.1 hq
    exact List.mem_permutations.2 (spread_perm d hv hl (List.mem_permutations.1 hp))
  · rw [List.length_map, List.length_permutations, List.length_permutations, hl]

theorem mean_priorities (x : N) (hd : ds.Pairwise (fun a b => b < a)) :
    meanOver ds.permutations (fun q => ((treapAfter d (vs.zip q)).root.visits x : ℚ)) =
      meanOver vs.permutations (fun p => ((firsts x p).length : ℚ)) := by
  rw [meanOver, meanOver, List.length_permutations, List.length_permutations, hl]
  congr 1
  rw [← ((spread_all d hv hl hd).map _).sum_eq, List.map_map]
  congr 1
  refine List.map_congr_left fun p hp => ?_
  have hp := List.mem_permutations.1 hp
  have e : (p.zip ds).map Prod.fst = p := List.map_fst_zip (by rw [hp.length_eq, hl])
  have hpn := hp.nodup_iff.2 hv
  simp only [Function.comp_apply]
  rw [treapAfter_eq d (spread_zip d hv hl hp), visits_bstOf x _ _ le_rfl (by rw [e]; exact hpn), e]
  · rw [List.map_fst_zip (by simp [spread])]; exact hv
  · rw [← List.pairwise_map (f := Prod.snd) (R := fun a b => b < a),
      List.map_snd_zip (by rw [hp.length_eq, hl])]
    exact hd

end

/-! ## Numbers inserted in increasing order -/

/-- a new greatest number whose priority is at least as high as all others becomes the root -/
theorem insert_top (v : N × P) : ∀ t : BTree (N × P), (∀ u ∈ t.inorder, u.1 < v.1) →
    (∀ u ∈ t.inorder, u.2 ≤ v.2) → t.treapInsert v = .ok (.node t v .nil, true, true)
  | .nil, _, _ => rfl
  | .node l w r, hk, hp => by
    have h1 := hk w (by simp)
    have h2 := hp w (by simp)
    have ih := insert_top v r (fun u hu => hk u (by simp [hu])) (fun u hu => hp u (by simp [hu]))
    simp [BTree.treapInsert, h1.ne', ih, bind, Except.bind, treapUp, sameSide,
      onSide, BTree.rotateLeft, pure, Except.pure, not_lt.2 h2, not_lt.2 h1.le]

/-- with a lower priority than the root it stays on the right of it -/
theorem insert_below (v : N × P) (l : BTree (N × P)) (w : N × P) (r : BTree (N × P))
    (hk : ∀ u ∈ (BTree.node l w r).inorder, u.1 < v.1) (hp : v.2 < w.2) (hh : heapI r) :
    ∃ r', (BTree.node l w r).treapInsert v = .ok (.node l w r', false, true) := by
  have h1 := hk w (by simp)
  have hr : ∀ u ∈ r.inorder, u.1 < v.1 := fun u hu => hk u (by simp [hu])
  by_cases top : topLe r v.2
  · have ih := insert_top v r hr (topLe_all r hh v.2 top)
    refine ⟨.node r v .nil, ?_⟩
    simp [BTree.treapInsert, h1.ne', ih, bind, Except.bind, treapUp, sameSide, onSide,
      pure, Except.pure, hp, not_lt.2 h1.le]
  · cases r with
    | nil => simp at top
    | node rl rw rr =>
      rw [topLe_node, not_le] at top
      obtain ⟨r', e⟩ := insert_below v rl rw rr hr top hh.2.1
      refine ⟨.node rl rw r', ?_⟩
      rw [BTree.treapInsert, if_neg h1.ne', if_neg (not_lt.2 h1.le), e]
      rfl
termination_by r

theorem insert_increasing (v : N × P) (x : N) (t : BTree (N × P)) (hk : ∀ u ∈ t.inorder, u.1 < v.1)
    (hx : ∀ u ∈ t.inorder, x ≤ u.1) (hh : heapI t) :
    ∃ s on, t.treapInsert v = .ok (s, on, true) ∧
      s.visits x = t.visits x + if ∀ u ∈ t.inorder, u.2 ≤ v.2 then 1 else 0 := by
  by_cases top : ∀ u ∈ t.inorder, u.2 ≤ v.2
  · refine ⟨_, _, insert_top v t hk top, ?_⟩
    rw [if_pos top, visits_node]
    split_ifs with h1 h2
    · cases t with
      | nil => rfl
      | node l w r => exact absurd (lt_of_le_of_lt (hx w (by simp)) (hk w (by simp))) (by simp [h1])
    · omega
    · cases t with
      | nil => simp [BTree.visits]
      | node l w r => exact absurd (lt_of_le_of_lt (hx w (by simp)) (hk w (by simp))) h2
  · cases t with
    | nil => simp at top
    | node l w r =>
      have : v.2 < w.2 := by
        by_contra h
        exact top (topLe_all _ hh v.2 (by rw [topLe_node]; exact not_lt.1 h))
      obtain ⟨r', e⟩ := insert_below v l w r hk this hh.2.1
      refine ⟨_, _, e, ?_⟩
      rw [if_neg top, visits_node, visits_node]
      have hw := hx w (by simp)
      split_ifs with h1 h2
      · rfl
      · rfl
      · exact absurd (lt_of_le_of_ne hw h1) h2

theorem mapInsert_end (v : N × P) : ∀ m : List (N × P), (∀ u ∈ m, u.1 < v.1) → mapInsert v m = m ++ [v]
  | [], _ => rfl
  | w :: m, h => by
    have h1 := h w (by simp)
    rw [mapInsert, if_neg (not_lt.2 h1.le), if_neg h1.ne', mapInsert_end v m (fun u hu => h u (by simp [hu]))]
    rfl

theorem insertNum_increasing (m1 : P) (t : Bst N P) (m : List (N × P)) (h : TreapOf t m) (v : N × P) (x : N)
    (hk : ∀ u ∈ m, u.1 < v.1) (hx : ∀ u ∈ m, x ≤ u.1) :
    ∃ r t', treapExec m1 t (.insert (.num v.1) (.none v.2)) = .ok (r, t') ∧ TreapOf t' (m ++ [v]) ∧
      t'.root.visits x = t.root.visits x + if ∀ u ∈ m, u.2 ≤ v.2 then 1 else 0 := by
  obtain ⟨t', e, h'⟩ := C50_insert m1 t m h v.1 v.2
  have e : treapExec m1 t (.insert (.num v.1) (.none v.2)) = _ := e
  refine ⟨_, t', e, by rwa [mapInsert_end v m hk] at h', ?_⟩
  obtain ⟨s, on, e2, hv⟩ := insert_increasing v x t.root (by rw [h.pairs]; exact hk) (by rw [h.pairs]; exact hx)
    ((heapI_iff _).2 h.heap)
  rw [h.pairs] at hv
  rw [← hv]
  obtain ⟨t, n⟩ := t
  cases t with
  | nil =>
    simp only [BTree.treapInsert, Except.ok.injEq, Prod.mk.injEq] at e2
    simp only [treapExec, treapInsertNum, validNum, TreapPrio.value, Except.ok.injEq, Prod.mk.injEq] at e
    rw [← e.2, ← e2.1]
  | node l w r =>
    simp only at e2
    simp only [treapExec, treapInsertNum, validNum, TreapPrio.value, e2, bind, Except.bind, pure,
      Except.pure, Except.ok.injEq, Prod.mk.injEq] at e
    rw [← e.2]

theorem execs_increasing (m1 : P) (x : N) : ∀ (vs : List (N × P)) (t : Bst N P) (m : List (N × P))
    (seen : List P), TreapOf t m → (∀ q, q ∈ seen ↔ q ∈ m.map Prod.snd) →
    ((m ++ vs).map Prod.fst).Pairwise (· < ·) → (∀ u ∈ m ++ vs, x ≤ u.1) →
    ∃ rs t', treapExecs m1 (drawOps vs) t = .ok (rs, t') ∧
      t'.root.visits x = t.root.visits x + weakRecords seen (vs.map Prod.snd)
  | [], t, _, _, _, _, _, _ => ⟨_, _, rfl, rfl⟩
  | v :: vs, t, m, seen, h, hs, hp, hx => by
    have hk : ∀ u ∈ m, u.1 < v.1 := by
      rw [List.map_append, List.pairwise_append] at hp
      exact fun u hu => hp.2.2 _ (List.mem_map_of_mem hu) _ (by simp)
    obtain ⟨r, t', e, h', hv⟩ := insertNum_increasing m1 t m h v x hk (fun u hu => hx u (by simp [hu]))
    obtain ⟨rs, t'', e', hv'⟩ := execs_increasing m1 x vs t' (m ++ [v]) (v.2 :: seen) h'
      (by intro q; rw [List.mem_cons, hs]; simp; tauto) (by simpa using hp) (by simpa using hx)
    refine ⟨r :: rs, t'', ?_, ?_⟩
    · unfold drawOps at e' ⊢
      simp only [List.map_cons, treapExecs, e, bind, Except.bind, e']
      rfl
    · rw [hv', hv, List.map_cons, weakRecords, Nat.add_assoc]
      congr 2
      refine if_congr ⟨fun k q hq => ?_, fun k u hu => k _ ((hs _).2 (List.mem_map_of_mem hu))⟩ rfl rfl
      obtain ⟨u, hu, rfl⟩ := List.mem_map.1 ((hs q).1 hq)
      exact k u hu

theorem visits_increasing (m1 : P) (x : N) (vs : List (N × P)) (hp : (vs.map Prod.fst).Pairwise (· < ·))
    (hx : ∀ u ∈ vs, x ≤ u.1) : (treapAfter m1 vs).root.visits x = weakRecords [] (vs.map Prod.snd) := by
  obtain ⟨rs, t, e, h⟩ := execs_increasing m1 x vs Bst.empty [] []
    ⟨by simp [SearchTree, Bst.empty], (heapI_iff _).1 trivial, rfl, rfl⟩ (by simp)
    (by simpa using hp) (by simpa using hx)
  rw [treapAfter, e]
  simpa [Bst.empty, BTree.visits] using h

/-! ## The mean over all draws -/

theorem length_draws (k : Nat) : ∀ n, (draws k n).length = k ^ n
  | 0 => rfl
  | n + 1 => by simp [draws, List.length_flatMap, length_draws k n, pow_succ, mul_comm]

theorem sum_draws (k n : Nat) (f : List Nat → ℚ) :
    ((draws k (n + 1)).map f).sum =
      ∑ p ∈ Finset.range k, ((draws k n).map (fun q => f (p :: q))).sum := by
  rw [draws, List.map_flatMap, List.flatMap_def, List.sum_flatten, List.map_map]
  simp [Finset.sum, Multiset.range, Function.comp_def]

theorem sum_weakRecords (k : Nat) : ∀ (n : Nat) (seen : List Nat),
    ((draws k n).map (fun q => (weakRecords seen q : ℚ))).sum =
      ∑ j ∈ Finset.range n, (k : ℚ) ^ (n - 1 - j) *
        ∑ p ∈ Finset.range k with ∀ q ∈ seen, q ≤ p, ((p : ℚ) + 1) ^ j
  | 0, seen => by simp [draws, weakRecords]
  | n + 1, seen => by
    rw [sum_draws]
    have h : ∀ p, ((draws k n).map (fun q => (weakRecords seen (p :: q) : ℚ))).sum =
        (k : ℚ) ^ n * (if ∀ q ∈ seen, q ≤ p then 1 else 0) +
          ∑ j ∈ Finset.range n, (k : ℚ) ^ (n - 1 - j) *
            ∑ p' ∈ Finset.range k with ∀ q ∈ p :: seen, q ≤ p', ((p' : ℚ) + 1) ^ j := by
      intro p
      rw [← sum_weakRecords k n (p :: seen)]
      simp only [weakRecords, Nat.cast_add]
      rw [List.sum_map_add, List.map_const', List.sum_replicate, length_draws]
      simp
    simp only [h]
    rw [Finset.sum_add_distrib, Finset.sum_range_succ', add_comm]
    congr 1
    · rw [Finset.sum_comm]
      refine Finset.sum_congr rfl fun j hj => ?_
      rw [← Finset.mul_sum]
      have e : n + 1 - 1 - (j + 1) = n - 1 - j := by omega
      rw [e]
      congr 1
      simp only [Finset.sum_filter]
      rw [Finset.sum_comm]
      refine Finset.sum_congr rfl fun p' hp' => ?_
      have hp' := Finset.mem_range.1 hp'
      by_cases c : ∀ q ∈ seen, q ≤ p'
      · have : ∀ p, (∀ q ∈ p :: seen, q ≤ p') ↔ p < p' + 1 := by
          intro p
          rw [List.forall_mem_cons, Nat.lt_succ_iff]
          exact and_iff_left c
        simp only [this]
        rw [if_pos c, ← Finset.sum_filter]
        have e2 : (Finset.range k).filter (fun p => p < p' + 1) = Finset.range (p' + 1) := by
          ext a; simp; omega
        rw [e2, Finset.sum_const, Finset.card_range, nsmul_eq_mul, pow_succ]
        push_cast; ring
      · rw [if_neg c]
        refine Finset.sum_eq_zero fun p _ => ?_
        rw [if_neg (fun k => c fun q hq => k q (by simp [hq]))]
    · simp only [Nat.add_sub_cancel, Nat.sub_zero, pow_zero]
      rw [← Finset.mul_sum, Finset.sum_filter]

theorem mean_weakRecords (k n : Nat) (hk : 0 < k) :
    meanOver (draws k n) (fun q => (weakRecords [] q : ℚ)) =
      ∑ j ∈ Finset.range n, (∑ i ∈ Finset.range k, (((i : ℚ) + 1) / k) ^ j) / k := by
  rw [meanOver, sum_weakRecords, length_draws, Finset.sum_div]
  refine Finset.sum_congr rfl fun j hj => ?_
  have hj := Finset.mem_range.1 hj
  have hk' : (k : ℚ) ≠ 0 := by positivity
  have e : n = (n - 1 - j) + j + 1 := by omega
  simp only [List.not_mem_nil, false_implies, implies_true, Finset.filter_true, div_pow]
  rw [← Finset.sum_div, div_div, ← pow_succ]
  push_cast
  rw [div_eq_div_iff (by positivity) (by positivity)]
  conv_lhs => rw [mul_right_comm, ← pow_add]
  conv_rhs => rw [mul_comm, e]
  congr 2

/-- the greatest possible draw is as high as all before it -/
theorem mean_weakRecords_ge (k n : Nat) (hk : 0 < k) (hn : 0 < n) :
    1 + ((n - 1 : Nat) : ℚ) / k ≤ meanOver (draws k n) (fun q => (weakRecords [] q : ℚ)) := by
  rw [mean_weakRecords k n hk]
  obtain ⟨n, rfl⟩ : ∃ m, n = m + 1 := ⟨n - 1, by omega⟩
  have hk' : (k : ℚ) ≠ 0 := by positivity
  rw [Finset.sum_range_succ', add_comm]
  refine add_le_add ?_ ?_
  · rw [Nat.add_sub_cancel]
    have h : ∀ j ∈ Finset.range n, (1 : ℚ) / k ≤
        (∑ i ∈ Finset.range k, (((i : ℚ) + 1) / k) ^ (j + 1)) / k := by
      intro j _
      refine div_le_div_of_nonneg_right ?_ (by positivity)
      have := Finset.single_le_sum (f := fun i : Nat => (((i : ℚ) + 1) / k) ^ (j + 1))
        (fun i _ => by positivity) (Finset.mem_range.2 (Nat.sub_lt hk Nat.one_pos))
      refine le_trans (le_of_eq ?_) this
      have e : ((k - 1 : Nat) : ℚ) + 1 = k := by
        have : ((k - 1 + 1 : Nat) : ℚ) = k := by congr 1; omega
        rw [← this]; push_cast; rfl
      simp only [e, div_self hk', one_pow]
    have := Finset.sum_le_sum h
    rw [Finset.sum_const, Finset.card_range, nsmul_eq_mul, mul_one_div] at this
    exact this
  · simp [hk']

theorem pow_succ_diff (i : ℚ) (hi : 0 ≤ i) : ∀ j : Nat, i ^ (j + 1) + (j + 1) * i ^ j ≤ (i + 1) ^ (j + 1)
  | 0 => by simp
  | j + 1 => by
    have ih := pow_succ_diff i hi j
    have h := mul_le_mul_of_nonneg_right ih (by linarith : (0 : ℚ) ≤ i + 1)
    rw [← pow_succ] at h
    have e : (i ^ (j + 1) + (j + 1) * i ^ j) * (i + 1) =
        i ^ (j + 1 + 1) + (((j + 1 : Nat) : ℚ) + 1) * i ^ (j + 1) + (j + 1) * i ^ j := by push_cast; ring
    have h0 : (0 : ℚ) ≤ (j + 1) * i ^ j := by positivity
    linarith

theorem sum_pow_le (j : Nat) : ∀ k : Nat,
    ∑ i ∈ Finset.range k, ((i : ℚ) + 1) ^ j ≤ (k : ℚ) ^ (j + 1) / (j + 1) + (k : ℚ) ^ j
  | 0 => by
    rw [Finset.sum_range_zero]
    positivity
  | k + 1 => by
    have ih := sum_pow_le j k
    have h := pow_succ_diff k (by positivity) j
    rw [Finset.sum_range_succ]
    push_cast
    have h2 : (k : ℚ) ^ (j + 1) / (j + 1) + (k : ℚ) ^ j ≤ ((k : ℚ) + 1) ^ (j + 1) / (j + 1) := by
      rw [le_div_iff₀ (by positivity), add_mul, div_mul_cancel₀ _ (by positivity)]
      linarith
    linarith

theorem mean_pow_le (k j : Nat) (hk : 0 < k) :
    (∑ i ∈ Finset.range k, (((i : ℚ) + 1) / k) ^ j) / k ≤ ((j + 1 : Nat) : ℚ)⁻¹ + 1 / k := by
  have hk' : (k : ℚ) ≠ 0 := by positivity
  simp only [div_pow]
  rw [← Finset.sum_div, div_div, ← pow_succ, div_le_iff₀ (by positivity)]
  refine (sum_pow_le j k).trans (le_of_eq ?_)
  push_cast
  field_simp
  ring

theorem mean_weakRecords_le (k n : Nat) (hk : 0 < k) :
    meanOver (draws k n) (fun q => (weakRecords [] q : ℚ)) ≤ harmonic n + (n : ℚ) / k := by
  rw [mean_weakRecords k n hk]
  refine (Finset.sum_le_sum fun j _ => mean_pow_le k j hk).trans (le_of_eq ?_)
  rw [Finset.sum_add_distrib, Finset.sum_const, Finset.card_range, nsmul_eq_mul, mul_one_div, harmonic]

/-! ## Any order of insertion -/

/-- a node above `x` has no lower priority than any node whose number is between it and `x` -/
theorem visits_le (x : N) : ∀ t : BTree (N × P), t.keys.Pairwise (· < ·) → heapI t →
    t.visits x ≤ (t.inorder.filter fun y => ∀ z ∈ t.inorder, span x y.1 z.1 = true → z.2 ≤ y.2).length
  | .nil, _, _ => by simp [BTree.visits]
  | .node l w r, hs, hh => by
    obtain ⟨s1, s2, s3, s4⟩ := sorted_node.1 hs
    have top := topLe_all _ hh w.2 (by simp)
    have hl := visits_le x l s1 hh.1
    have hr := visits_le x r s2 hh.2.1
    have kl : ∀ u ∈ l.inorder, u.1 < w.1 := fun u hu => s3 _ (List.mem_map_of_mem hu)
    have kr : ∀ u ∈ r.inorder, w.1 < u.1 := fun u hu => s4 _ (List.mem_map_of_mem hu)
    have e : (BTree.node l w r).inorder = l.inorder ++ [w] ++ r.inorder := rfl
    rw [visits_node, e, List.filter_append, List.filter_append, List.length_append, List.length_append]
    have h1 : ([w].filter fun y => ∀ z ∈ l.inorder ++ [w] ++ r.inorder,
        span x y.1 z.1 = true → z.2 ≤ y.2).length = 1 := by
      rw [List.filter_cons_of_pos]
      · rfl
      · rw [decide_eq_true_eq]
        exact fun z hz _ => top z hz
    rw [h1]
    split_ifs with c1 c2
    · omega
    · have : (l.inorder.filter fun y => ∀ z ∈ l.inorder, span x y.1 z.1 = true → z.2 ≤ y.2) =
          l.inorder.filter fun y => ∀ z ∈ l.inorder ++ [w] ++ r.inorder, span x y.1 z.1 = true → z.2 ≤ y.2 := by
        refine List.filter_congr fun y hy => decide_eq_decide.2 ⟨fun k z hz hz' => ?_, fun k z hz => k z (by simp [hz])⟩
        have hy' := kl y hy
        have : z.1 < w.1 := by
          rw [span, decide_eq_true_eq] at hz'
          rcases hz' with ⟨_, a⟩ | ⟨_, a⟩
          · exact lt_of_le_of_lt a hy'
          · exact lt_of_le_of_lt a c2
        simp only [List.mem_append, List.mem_singleton] at hz
        rcases hz with (hz | rfl) | hz
        · exact k z hz hz'
        · exact absurd this (lt_irrefl _)
        · exact absurd (this.trans (kr z hz)) (lt_irrefl _)
      rw [← this]; omega
    · have c3 : w.1 < x := lt_of_le_of_ne (not_lt.1 c2) (Ne.symm c1)
      have : (r.inorder.filter fun y => ∀ z ∈ r.inorder, span x y.1 z.1 = true → z.2 ≤ y.2) =
          r.inorder.filter fun y => ∀ z ∈ l.inorder ++ [w] ++ r.inorder, span x y.1 z.1 = true → z.2 ≤ y.2 := by
        refine List.filter_congr fun y hy => decide_eq_decide.2 ⟨fun k z hz hz' => ?_, fun k z hz => k z (by simp [hz])⟩
        have hy' := kr y hy
        have : w.1 < z.1 := by
          rw [span, decide_eq_true_eq] at hz'
          rcases hz' with ⟨a, _⟩ | ⟨a, _⟩
          · exact lt_of_lt_of_le c3 a
          · exact lt_of_lt_of_le hy' a
        simp only [List.mem_append, List.mem_singleton] at hz
        rcases hz with (hz | rfl) | hz
        · exact absurd (this.trans (kl z hz)) (lt_irrefl _)
        · exact absurd this (lt_irrefl _)
        · exact k z hz hz'
      rw [← this]; omega

/-- the priorities drawn give `y` the priority `a` and no higher one to the numbers in `S` -/
def domIn (S : N → Bool) (y : N) (a : Nat) (w : N × Nat) : Bool :=
  if w.1 = y then w.2 = a else if S w.1 then w.2 ≤ a else true

theorem sum_all (k : Nat) (A : N → Nat → Bool) : ∀ vs : List N,
    ((draws k vs.length).map fun q => if (vs.zip q).all (fun w => A w.1 w.2) then (1 : ℚ) else 0).sum =
      (vs.map fun v => ((((Finset.range k).filter fun p => A v p = true).card : Nat) : ℚ)).prod
  | [] => by simp [draws]
  | v :: vs => by
    rw [List.length_cons, sum_draws, List.map_cons, List.prod_cons, ← sum_all k A vs, Finset.card_filter]
    push_cast
    rw [Finset.sum_mul]
    refine Finset.sum_congr rfl fun p _ => ?_
    simp only [List.zip_cons_cons, List.all_cons]
    by_cases h : A v p = true
    · simp only [h, Bool.true_and, if_true, one_mul]
    · simp [h]

theorem prod_dom (k : Nat) (S : N → Bool) (y : N) (a : Nat) (ha : a < k) : ∀ vs : List N,
    (vs.map fun v => ((((Finset.range k).filter fun p => domIn S y a (v, p) = true).card : Nat) : ℚ)).prod =
      ((a : ℚ) + 1) ^ (vs.countP fun v => v ≠ y ∧ S v = true) * (k : ℚ) ^ (vs.countP fun v => v ≠ y ∧ S v = false)
  | [] => by simp
  | v :: vs => by
    rw [List.map_cons, List.prod_cons, prod_dom k S y a ha vs, List.countP_cons, List.countP_cons]
    by_cases e : v = y
    · have : (Finset.range k).filter (fun p => domIn S y a (v, p) = true) = {a} := by
        ext p
        simp only [Finset.mem_filter, Finset.mem_range, Finset.mem_singleton, domIn, e, if_true,
          decide_eq_true_eq]
        omega
      rw [this]; simp [e]
    · cases hS : S v with
      | true =>
        have : (Finset.range k).filter (fun p => domIn S y a (v, p) = true) = Finset.range (a + 1) := by
          ext p; simp [domIn, e, hS]; omega
        rw [this]; simp [e, pow_succ]; ring
      | false =>
        have : (Finset.range k).filter (fun p => domIn S y a (v, p) = true) = Finset.range k := by
          ext p; simp [domIn, e, hS]
        rw [this]; simp [e, pow_succ]; ring

theorem sum_swap {α : Type} (F : Finset Nat) (f : α → Nat → ℚ) : ∀ L : List α,
    (L.map fun q => ∑ a ∈ F, f q a).sum = ∑ a ∈ F, (L.map fun q => f q a).sum
  | [] => by simp
  | q :: L => by simp [sum_swap F f L, Finset.sum_add_distrib]

theorem sum_swap' {α β : Type} (ys : List β) (f : α → β → ℚ) : ∀ L : List α,
    (L.map fun q => (ys.map fun y => f q y).sum).sum = (ys.map fun y => (L.map fun q => f q y).sum).sum
  | [] => by simp
  | q :: L => by simp [sum_swap' ys f L, List.sum_map_add]

theorem mean_dom (k : Nat) (hk : 0 < k) (S : N → Bool) {vs : List N} (hv : vs.Nodup) {y : N} (hy : y ∈ vs)
    (sy : S y = true) :
    meanOver (draws k vs.length) (fun q => ∑ a ∈ Finset.range k,
      if (vs.zip q).all (domIn S y a) then (1 : ℚ) else 0) ≤ ((vs.filter S).length : ℚ)⁻¹ + 1 / k := by
  have hk' : (k : ℚ) ≠ 0 := by positivity
  have pe := List.perm_cons_erase hy
  have ye : y ∉ vs.erase y := fun h => (hv.mem_erase_iff.1 h).1 rfl
  obtain ⟨c, hc⟩ : ∃ c, c = (vs.erase y).countP S := ⟨_, rfl⟩
  obtain ⟨d, hd⟩ : ∃ d, d = (vs.erase y).countP (fun v => !S v) := ⟨_, rfl⟩
  have e1 : (vs.countP fun v => v ≠ y ∧ S v = true) = c := by
    rw [pe.countP_eq, List.countP_cons, hc]
    simp only [ne_eq, not_true, false_and, decide_false, Bool.false_eq_true, if_false, add_zero]
    refine List.countP_congr fun v hv => ?_
    have : v ≠ y := fun e => ye (e ▸ hv)
    simp [this]
  have e2 : (vs.countP fun v => v ≠ y ∧ S v = false) = d := by
    rw [pe.countP_eq, List.countP_cons, hd]
    simp only [ne_eq, not_true, false_and, decide_false, Bool.false_eq_true, if_false, add_zero]
    refine List.countP_congr fun v hv => ?_
    have : v ≠ y := fun e => ye (e ▸ hv)
    simp [this]
  have e3 : (vs.filter S).length = c + 1 := by
    rw [← List.countP_eq_length_filter, pe.countP_eq, List.countP_cons, hc, sy]; rfl
  have e4 : vs.length = c + d + 1 := by
    rw [pe.length_eq, List.length_cons, hc, hd]
    have := List.length_eq_countP_add_countP S (l := vs.erase y)
    simpa using this
  rw [meanOver, sum_swap, length_draws]
  have : ∀ a ∈ Finset.range k, ((draws k vs.length).map fun q =>
      if (vs.zip q).all (domIn S y a) then (1 : ℚ) else 0).sum = ((a : ℚ) + 1) ^ c * (k : ℚ) ^ d := by
    intro a ha
    rw [← e1, ← e2, ← prod_dom k S y a (Finset.mem_range.1 ha) vs,
      ← sum_all k (fun v p => domIn S y a (v, p)) vs]
  rw [Finset.sum_congr rfl this, e3, e4]
  refine le_trans (le_of_eq ?_) (mean_pow_le k c hk)
  simp only [div_pow]
  rw [← Finset.sum_div, ← Finset.sum_mul]
  push_cast
  field_simp
  ring

theorem draws_mem (k : Nat) : ∀ (n : Nat) (q : List Nat), q ∈ draws k n → q.length = n ∧ ∀ p ∈ q, p < k
  | 0, q, h => by simp [draws] at h; simp [h]
  | n + 1, q, h => by
    simp only [draws, List.mem_flatMap, List.mem_range, List.mem_map] at h
    obtain ⟨p, hp, q', hq', rfl⟩ := h
    obtain ⟨h1, h2⟩ := draws_mem k n q' hq'
    refine ⟨by simp [h1], fun a ha => ?_⟩
    rcases List.mem_cons.1 ha with rfl | ha
    exacts [hp, h2 a ha]

theorem visits_le_dom (m1 : Nat) (x : N) (k : Nat) {vs : List N} (hv : vs.Nodup) {q : List Nat}
    (hl : vs.length = q.length) (hq : ∀ p ∈ q, p < k) :
    ((treapAfter m1 (vs.zip q)).root.visits x : ℚ) ≤
      (vs.map fun y => ∑ a ∈ Finset.range k,
        if (vs.zip q).all (domIn (span x y) y a) then (1 : ℚ) else 0).sum := by
  have ef : (vs.zip q).map Prod.fst = vs := List.map_fst_zip hl.le
  have hd : ((vs.zip q).map Prod.fst).Nodup := by rw [ef]; exact hv
  obtain ⟨m, h, pm⟩ := treapAfter_of m1 (vs.zip q) hd
  have h1 := visits_le x (treapAfter m1 (vs.zip q)).root h.search ((heapI_iff _).2 h.heap)
  rw [h.pairs, (pm.filter _).length_eq] at h1
  refine (Nat.cast_le.2 h1).trans ?_
  have key : ∀ L : List (N × Nat), (∀ w ∈ L, w ∈ vs.zip q) →
      (((L.filter fun y => ∀ z ∈ m, span x y.1 z.1 = true → z.2 ≤ y.2).length : Nat) : ℚ) ≤
        (L.map fun w => ∑ a ∈ Finset.range k,
          if (vs.zip q).all (domIn (span x w.1) w.1 a) then (1 : ℚ) else 0).sum := by
    intro L hL
    induction L with
    | nil => simp
    | cons w L ih =>
      have ih := ih fun u hu => hL u (by simp [hu])
      rw [List.map_cons, List.sum_cons]
      have h0 : (0 : ℚ) ≤ ∑ a ∈ Finset.range k,
          if (vs.zip q).all (domIn (span x w.1) w.1 a) then (1 : ℚ) else 0 :=
        Finset.sum_nonneg fun a _ => by split <;> norm_num
      by_cases c : ∀ z ∈ m, span x w.1 z.1 = true → z.2 ≤ w.2
      · rw [List.filter_cons_of_pos (by simpa using c), List.length_cons, Nat.cast_add, add_comm]
        refine add_le_add ?_ ih
        have hw := hL w (by simp)
        have good : (vs.zip q).all (domIn (span x w.1) w.1 w.2) = true := by
          rw [List.all_eq_true]
          intro z hz
          rw [domIn]
          split_ifs with c1 c2
          · rw [decide_eq_true_eq]
            rw [← prioIn_mem 0 hd hz, ← prioIn_mem 0 hd hw, c1]
          · simpa using c z (pm.mem_iff.2 hz) c2
          · rfl
        have := Finset.single_le_sum (f := fun a =>
            if (vs.zip q).all (domIn (span x w.1) w.1 a) then (1 : ℚ) else 0)
          (fun a _ => by split <;> norm_num)
          (Finset.mem_range.2 (hq w.2 (List.of_mem_zip hw).2))
        rw [if_pos good] at this
        exact_mod_cast this
      · rw [List.filter_cons_of_neg (by simpa using c)]
        linarith
  have := key (vs.zip q) (fun _ h => h)
  refine this.trans (le_of_eq ?_)
  have e := List.map_map (f := Prod.fst) (g := fun y => ∑ a ∈ Finset.range k,
    if (vs.zip q).all (domIn (span x y) y a) then (1 : ℚ) else 0) (l := vs.zip q)
  rw [ef] at e
  rw [e]
  rfl

theorem mean_visits_le (m1 : Nat) (x : N) (k : Nat) (hk : 0 < k) {vs : List N} (hv : vs.Nodup) :
    meanOver (draws k vs.length) (fun q => ((treapAfter m1 (vs.zip q)).root.visits x : ℚ)) ≤
      (vs.map fun y => ((vs.filter (span x y)).length : ℚ)⁻¹).sum + (vs.length : ℚ) / k := by
  have h1 : meanOver (draws k vs.length) (fun q => ((treapAfter m1 (vs.zip q)).root.visits x : ℚ)) ≤
      meanOver (draws k vs.length) (fun q => (vs.map fun y => ∑ a ∈ Finset.range k,
        if (vs.zip q).all (domIn (span x y) y a) then (1 : ℚ) else 0).sum) := by
    rw [meanOver, meanOver]
    refine div_le_div_of_nonneg_right (List.sum_le_sum fun q hq => ?_) (by positivity)
    obtain ⟨a, b⟩ := draws_mem k _ q hq
    exact visits_le_dom m1 x k hv a.symm b
  refine h1.trans ?_
  rw [meanOver, sum_swap', div_eq_mul_inv, ← List.sum_map_mul_right]
  have h2 : ∀ y ∈ vs, ((draws k vs.length).map fun q => ∑ a ∈ Finset.range k,
      if (vs.zip q).all (domIn (span x y) y a) then (1 : ℚ) else 0).sum * ((draws k vs.length).length : ℚ)⁻¹ ≤
      ((vs.filter (span x y)).length : ℚ)⁻¹ + 1 / k := by
    intro y hy
    rw [← div_eq_mul_inv]
    exact mean_dom k hk (span x y) hv hy (by simp [span, le_total])
  refine (List.sum_le_sum h2).trans (le_of_eq ?_)
  rw [List.sum_map_add, List.map_const', List.sum_replicate, nsmul_eq_mul, mul_one_div]

end Extra
