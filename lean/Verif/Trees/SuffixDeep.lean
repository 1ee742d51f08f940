import Verif.Trees.SuffixRefine
import Verif.Trees.TreeProofs

/-!
# The deepest nodes of a suffix trie
-/

set_option linter.unusedSimpArgs false

namespace Extra

/-- `v` is the node that `p` leads to, `n` levels below `t` -/
inductive NodeDepth (t : TNode) : Nat → Word → TNode → Prop
  | root : NodeDepth t 0 [] t
  | child {n : Nat} {p : Word} {u v : TNode} {c : Char} (h : NodeDepth t n p u)
      (hc : u.kids.child c = some v) : NodeDepth t (n + 1) (p ++ v.data) v

theorem NodeDepth.at {t v : TNode} {n : Nat} {p : Word} (h : NodeDepth t n p v) : NodeAt t p v := by
  induction h with
  | root => exact .here _
  | child _ hc ih => exact ih.trans (.child hc)

/-- the tree below a node, labelled with references -/
def refsAt (p : Word) (v : TNode) : RTree Word := .node p (v.kids.refs p)

theorem Kids.mem_refs {p : Word} {s : RTree Word} : ∀ {ks : Kids}, ks.Ok →
    (s ∈ ks.refs p ↔ ∃ c v, ks.child c = some v ∧ s = refsAt (p ++ v.data) v)
  | .nil, _ => by simp [Kids.refs, Kids.child]
  | .cons k d b ks rest, h => by
    obtain ⟨_, h2, _, h4⟩ := h
    rw [Kids.refs, List.mem_cons, Kids.mem_refs h4]
    constructor
    · rintro (rfl | ⟨c, v, hc, rfl⟩)
      · exact ⟨k, ⟨d, b, ks⟩, by simp [Kids.child], rfl⟩
      · refine ⟨c, v, ?_, rfl⟩
        rw [Kids.child, if_neg, hc]
        rintro rfl
        rw [h2] at hc; cases hc
    · rintro ⟨c, v, hc, rfl⟩
      rw [Kids.child] at hc
      by_cases e : k = c
      · rw [if_pos e] at hc
        cases hc
        exact Or.inl rfl
      · rw [if_neg e] at hc
        exact Or.inr ⟨c, v, hc, rfl⟩

theorem mem_refs_nodesAt {t : TNode} (h : t.kids.Ok) : ∀ (n : Nat) (s : RTree Word),
    s ∈ t.refs.nodesAt n ↔ ∃ p v, NodeDepth t n p v ∧ s = refsAt p v
  | 0, s => by
    rw [RTree.nodesAt, List.mem_singleton]
    constructor
    · rintro rfl; exact ⟨[], t, .root, rfl⟩
    · rintro ⟨p, v, hd, rfl⟩
      cases hd
      rfl
  | n + 1, s => by
    rw [RTree.nodesAt_succ', List.mem_flatMap]
    constructor
    · rintro ⟨s', hs', hs⟩
      obtain ⟨p, v, hd, rfl⟩ := (mem_refs_nodesAt h n s').1 hs'
      obtain ⟨c, u, hc, rfl⟩ := (Kids.mem_refs (hd.at.ok h)).1 hs
      exact ⟨_, _, .child hd hc, rfl⟩
    · rintro ⟨p, v, hd, rfl⟩
      cases hd with
      | child hd hc =>
        exact ⟨_, (mem_refs_nodesAt h n _).2 ⟨_, _, hd, rfl⟩,
          (Kids.mem_refs (hd.at.ok h)).2 ⟨_, _, hc, rfl⟩⟩

theorem Kids.refs_height (p : Word) : ∀ (ks : Kids) (a : Nat),
    RTree.heightAll (ks.refs p) a = RTree.heightAll ks.rose a
  | .nil, a => by simp [Kids.refs, Kids.rose]
  | .cons k d b ks rest, a => by
    rw [Kids.refs, Kids.rose, RTree.heightAll, RTree.heightAll, RTree.height, RTree.height,
      Kids.refs_height _ ks, Kids.refs_height _ rest]

theorem TNode.refs_height (t : TNode) : t.refs.height = t.rose.height := by
  rw [TNode.refs, TNode.rose, RTree.height, RTree.height, Kids.refs_height]

/-- some node is that deep iff the height allows it -/
theorem depth_iff {t : TNode} (h : t.kids.Ok) (n : Nat) :
    (∃ p v, NodeDepth t n p v) ↔ n ≤ t.rose.height := by
  rw [← TNode.refs_height, ← not_lt, ← RTree.nodesAt_nil_iff, List.eq_nil_iff_forall_not_mem, not_forall]
  constructor
  · rintro ⟨p, v, hd⟩
    exact ⟨refsAt p v, fun hn => hn ((mem_refs_nodesAt h n _).2 ⟨p, v, hd, rfl⟩)⟩
  · rintro ⟨s, hs⟩
    obtain ⟨p, v, hd, _⟩ := (mem_refs_nodesAt h n s).1 (not_not.1 hs)
    exact ⟨p, v, hd⟩

/-- every node has a depth -/
theorem NodeAt.depth {t v : TNode} {p : Word} (h : NodeAt t p v) : ∃ n, NodeDepth t n p v := by
  have key : ∀ {u v : TNode} {q : Word}, NodeAt u q v → ∀ {n : Nat} {p : Word}, NodeDepth t n p u →
      ∃ m, NodeDepth t m (p ++ q) v := by
    intro u v q h
    induction h with
    | here u => intro n p hd; exact ⟨n, by simpa using hd⟩
    | step hu r ih =>
      intro n p hd
      obtain ⟨m, hm⟩ := ih (.child hd hu)
      exact ⟨m, by simpa using hm⟩
  obtain ⟨m, hm⟩ := key h .root
  exact ⟨m, by simpa using hm⟩

/-- the levels, by reference -/
theorem refs_levels (t : TNode) : t.refs.perLevel 0 [] = .ok t.refs.levels := by
  have := treeLevels_some t.refs
  rwa [treeLevels] at this

/-- the nodes of the last two levels -/
theorem mem_deepest {t : Trie} (h : t.root.kids.Ok) (hk : t.root.kids ≠ .nil) :
    ∃ ns, t.deepest = .ok ns ∧ ∀ p, p ∈ ns ↔
      ∃ n v, NodeDepth t.root (n + 1) p v ∧ t.root.rose.height ≤ n + 2 := by
  have hlev : ∀ n p, p ∈ (t.root.refs.nodesAt n).map RTree.data ↔ ∃ v, NodeDepth t.root n p v := by
    intro n p
    rw [List.mem_map]
    constructor
    · rintro ⟨s, hs, rfl⟩
      obtain ⟨q, v, hd, rfl⟩ := (mem_refs_nodesAt h n s).1 hs
      exact ⟨v, hd⟩
    · rintro ⟨v, hd⟩
      exact ⟨_, (mem_refs_nodesAt h n _).2 ⟨_, _, hd, rfl⟩, rfl⟩
  have hle : ∀ {n p v}, NodeDepth t.root n p v → n ≤ t.root.rose.height :=
    fun hd => (depth_iff h _).1 ⟨_, _, hd⟩
  have hpos : 1 ≤ t.root.rose.height := by
    rw [← depth_iff h]
    cases hks : t.root.kids with
    | nil => exact absurd hks hk
    | cons k d b ks rest =>
      exact ⟨_, ⟨d, b, ks⟩, NodeDepth.child (c := k) .root (by rw [hks]; simp [Kids.child])⟩
  rw [Trie.deepest, refs_levels]
  simp only
  rw [RTree.levels, TNode.refs_height]
  obtain ⟨H, hH⟩ : ∃ H, t.root.rose.height = H + 1 := ⟨_, (Nat.succ_pred_eq_of_pos hpos).symm⟩
  rw [hH] at hle ⊢
  rw [List.range_succ, List.range_succ, List.map_append, List.map_append, List.reverse_append,
    List.reverse_append]
  cases H with
  | zero =>
    refine ⟨_, rfl, ?_⟩
    intro p
    rw [hlev]
    constructor
    · rintro ⟨v, hd⟩; exact ⟨0, v, hd, by omega⟩
    · rintro ⟨n, v, hd, _⟩
      have := hle hd
      have : n = 0 := by omega
      subst this
      exact ⟨v, hd⟩
  | succ H =>
    rw [List.range_succ, List.map_append, List.reverse_append]
    refine ⟨_, rfl, ?_⟩
    intro p
    rw [List.mem_append, hlev, hlev]
    constructor
    · rintro (⟨v, hd⟩ | ⟨v, hd⟩)
      · exact ⟨H + 1, v, hd, by omega⟩
      · exact ⟨H, v, hd, by omega⟩
    · rintro ⟨n, v, hd, hn⟩
      have := hle hd
      rcases (by omega : n = H + 1 ∨ n = H) with rfl | rfl
      · exact Or.inl ⟨v, hd⟩
      · exact Or.inr ⟨v, hd⟩

/-- what the loop over the deepest nodes collects -/
theorem lcsLoop_spec {t : Trie} (f : Word → Word) : ∀ (ps : List Word) (l : Nat) (set : List Word),
    (∀ p ∈ ps, t.ancestorsData p = .ok (f p)) → set.Nodup →
    (∀ x ∈ set, x.length ≤ l) → (l = 0 ∨ ∃ x ∈ set, x.length = l) →
    ∃ l' set', lcsLoop t ps l set = .ok (l', set') ∧ set'.Nodup ∧
      (∀ x, x ∈ set' ↔ x ∈ set ∨ ∃ p ∈ ps, x = f p) ∧
      (∀ x ∈ set', x.length ≤ l') ∧ (l' = 0 ∨ ∃ x ∈ set', x.length = l')
  | [], l, set, _, h2, h3, h4 => ⟨l, set, rfl, h2, by simp, h3, h4⟩
  | p :: ps, l, set, h1, h2, h3, h4 => by
    rw [lcsLoop, h1 p (by simp)]
    simp only
    have hmem : ∀ x, x ∈ (if f p ∈ set then set else set ++ [f p]) ↔ x ∈ set ∨ x = f p := by
      intro x
      by_cases hp : f p ∈ set
      · rw [if_pos hp]
        constructor
        · exact Or.inl
        · rintro (h | rfl)
          · exact h
          · exact hp
      · rw [if_neg hp]; simp
    obtain ⟨l', set', e, k2, k1, k3, k4⟩ := lcsLoop_spec f ps (max l (f p).length)
      (if f p ∈ set then set else set ++ [f p]) (fun q hq => h1 q (by simp [hq]))
      (by
        by_cases hp : f p ∈ set
        · rw [if_pos hp]; exact h2
        · rw [if_neg hp, List.nodup_append]
          refine ⟨h2, by simp, ?_⟩
          intro a ha b hb
          rw [List.mem_singleton] at hb
          subst hb
          rintro rfl
          exact hp ha)
      (by
        intro x hx
        rcases (hmem x).1 hx with h | rfl
        · exact (h3 x h).trans (le_max_left _ _)
        · exact le_max_right _ _)
      (by
        rcases le_total (f p).length l with h | h
        · rw [max_eq_left h]
          rcases h4 with h4 | ⟨x, hx, e⟩
          · exact Or.inl h4
          · exact Or.inr ⟨x, (hmem x).2 (Or.inl hx), e⟩
        · rw [max_eq_right h]
          exact Or.inr ⟨f p, (hmem _).2 (Or.inr rfl), rfl⟩)
    refine ⟨l', set', e, k2, ?_, k3, k4⟩
    intro x
    rw [k1, hmem]
    constructor
    · rintro ((h | h) | ⟨q, hq, h⟩)
      · exact Or.inl h
      · exact Or.inr ⟨p, by simp, h⟩
      · exact Or.inr ⟨q, by simp [hq], h⟩
    · rintro (h | ⟨q, hq, h⟩)
      · exact Or.inl (Or.inl h)
      · rcases List.mem_cons.1 hq with rfl | hq
        · exact Or.inl (Or.inr h)
        · exact Or.inr ⟨q, hq, h⟩

/-- the strings that occur at two positions -/
def RepeatedIn (w p : Word) : Prop := ∃ i j, i < j ∧ j ≤ w.length ∧ p <+: w.drop i ∧ p <+: w.drop j

/-- the strings of the nodes that have children -/
def InnerAt (t : TNode) (n : Nat) (p : Word) : Prop := ∃ v, NodeDepth t n p v ∧ v.kids ≠ .nil

theorem Kids.ne_nil_iff {ks : Kids} : ks ≠ .nil ↔ ∃ c v, ks.child c = some v := by
  cases ks with
  | nil => simp [Kids.child]
  | cons k d b ks rest => simp only [ne_eq, reduceCtorEq, not_false_eq_true, true_iff]; exact ⟨k, ⟨d, b, ks⟩, by simp [Kids.child]⟩

theorem SuffixInv.root_kids {s : SuffixTrie} (I : SuffixInv s) : s.rt.root.kids ≠ .nil := by
  have := I.trie.keys _ (mem_suffixKeys.2 ⟨0, Nat.zero_le _, rfl⟩)
  cases hk : suffixKey s.word 0 with
  | nil => exact absurd hk (suffixKey_ne _ _)
  | cons a r =>
    rw [hk] at this
    obtain ⟨u, _, hu, _⟩ := (TNode.strs_cons I.trie.ok).1 this
    exact Kids.ne_nil_iff.2 ⟨_, _, hu⟩

theorem SuffixInv.isEmpty {s : SuffixTrie} (I : SuffixInv s) : s.rt.isEmpty = false := by
  rw [Trie.isEmpty, decide_eq_false_iff_not, I.trie.count, TNode.size_eq]
  obtain ⟨c, v, hc⟩ := Kids.ne_nil_iff.1 I.root_kids
  cases hk : s.rt.root.kids with
  | nil => rw [hk] at hc; cases hc
  | cons k d b ks rest => rw [Kids.size_cons]; omega

/-- `get_longest_repeated_substring` returns the longest strings among the inner nodes two levels or
less above the deepest leaf -/
theorem SuffixInv.longestRepeated {s : SuffixTrie} (I : SuffixInv s) :
    ∃ L, s.longestRepeated = .ok L ∧ L.Nodup ∧ ∀ x, x ∈ L ↔
      (∃ n, InnerAt s.rt.root n x ∧ s.rt.root.rose.height ≤ n + 2) ∧
      ∀ y n, InnerAt s.rt.root n y → s.rt.root.rose.height ≤ n + 2 → y.length ≤ x.length := by
  obtain ⟨ns, e, hns⟩ := mem_deepest I.trie.ok I.root_kids
  have hanc : ∀ p ∈ ns, ∃ q, s.rt.ancestorsData p = .ok q := by
    intro p hp
    obtain ⟨n, v, hd, _⟩ := (hns p).1 hp
    cases hd with
    | child hd hc => exact ⟨_, ancestorsData_spec I.trie.ok hd.at hc⟩
  let f : Word → Word := fun p => match s.rt.ancestorsData p with
    | .ok q => q
    | .error _ => []
  have hf : ∀ p ∈ ns, s.rt.ancestorsData p = .ok (f p) := by
    intro p hp
    obtain ⟨q, hq⟩ := hanc p hp
    simp only [f, hq]
  obtain ⟨l, set, e', k2, k1, k3, k4⟩ := lcsLoop_spec f ns 0 [] hf List.nodup_nil (by simp) (Or.inl rfl)
  have hset : ∀ x, x ∈ set ↔ ∃ n, InnerAt s.rt.root n x ∧ s.rt.root.rose.height ≤ n + 2 := by
    intro x
    rw [k1]
    simp only [List.not_mem_nil, false_or]
    constructor
    · rintro ⟨p, hp, rfl⟩
      obtain ⟨n, v, hd, hn⟩ := (hns p).1 hp
      have := hf p hp
      cases hd with
      | child hd hc =>
        rw [ancestorsData_spec I.trie.ok hd.at hc] at this
        rw [← Except.ok.inj this]
        exact ⟨n, ⟨_, hd, Kids.ne_nil_iff.2 ⟨_, _, hc⟩⟩, hn⟩
    · rintro ⟨n, ⟨v, hd, hv⟩, hn⟩
      obtain ⟨c, u, hc⟩ := Kids.ne_nil_iff.1 hv
      have hp := (hns _).2 ⟨n, u, .child hd hc, hn⟩
      refine ⟨_, hp, ?_⟩
      have := hf _ hp
      rw [ancestorsData_spec I.trie.ok hd.at hc] at this
      exact Except.ok.inj this
  refine ⟨set.filter (fun x => decide (x.length = l)), ?_, k2.filter _, ?_⟩
  · rw [SuffixTrie.longestRepeated, I.isEmpty, e]
    simp only [Bool.false_eq_true, if_false]
    rw [e']
  · intro x
    rw [List.mem_filter, decide_eq_true_eq, hset]
    constructor
    · rintro ⟨h1, h2⟩
      refine ⟨h1, ?_⟩
      intro y n hy hn
      rw [h2]
      exact k3 y ((hset y).2 ⟨n, hy, hn⟩)
    · rintro ⟨h1, h2⟩
      refine ⟨h1, ?_⟩
      apply le_antisymm (k3 x ((hset x).2 h1))
      rcases k4 with h | ⟨y, hy, h⟩
      · omega
      · obtain ⟨n, hn⟩ := (hset y).1 hy
        rw [← h]
        exact h2 y n hn.1 hn.2

/-- an inner node below the root spells a repeated substring -/
theorem SuffixInv.inner_repeated {s : SuffixTrie} (I : SuffixInv s) {n : Nat} {p : Word}
    (h : InnerAt s.rt.root n p) (hp : p ≠ []) : RepeatedIn s.word p := by
  obtain ⟨v, hd, hv⟩ := h
  have hfree := suffixKeys_free I.dollar
  have hm := (mem_strs I.trie.ok).2 ⟨v, hd.at, rfl⟩
  rcases I.trie.branch p _ hm hp with hk | ⟨a, c, x, y, e, f, hac, h1, h2⟩
  · exact absurd ((I.trie.leaf_iff hfree hd.at hp).2 hk) hv
  · have key : ∀ {z g}, (z, g) ∈ s.rt.root.strs → z ≠ [] → ∃ i ≤ s.word.length, z <+: suffixKey s.word i := by
      intro z g hz hne
      rcases I.trie.cover z g hz with h | ⟨k, hk, hzk⟩
      · exact absurd h hne
      · obtain ⟨i, hi, rfl⟩ := mem_suffixKeys.1 hk
        exact ⟨i, hi, hzk⟩
    obtain ⟨i, hi, hzi⟩ := key h1 (by simp)
    obtain ⟨j, hj, hzj⟩ := key h2 (by simp)
    have pi : p <+: suffixKey s.word i := List.IsPrefix.trans ⟨_, rfl⟩ hzi
    have pj : p <+: suffixKey s.word j := List.IsPrefix.trans ⟨_, rfl⟩ hzj
    have hij : i ≠ j := by
      rintro rfl
      rcases List.prefix_or_prefix_of_prefix hzi hzj with h | h
      · rw [List.prefix_append_right_inj] at h
        obtain ⟨r, hr⟩ := h
        exact hac (List.cons.inj hr).1
      · rw [List.prefix_append_right_inj] at h
        obtain ⟨r, hr⟩ := h
        exact hac (List.cons.inj hr).1.symm
    have hdol : '$' ∉ p := by
      intro hd'
      obtain ⟨p1, p2, hp12, hn1⟩ := List.eq_append_cons_of_mem hd'
      have hl : ∀ {k : Nat}, p <+: suffixKey s.word k → p1 = s.word.drop k := by
        intro k hk
        rw [hp12, suffixKey_eq] at hk
        exact before_dollar hn1 (fun h => I.dollar (List.mem_of_mem_drop h)) hk
      have h3 := congrArg List.length ((hl pi).symm.trans (hl pj))
      rw [List.length_drop, List.length_drop] at h3
      omega
    rw [prefix_key hdol] at pi pj
    rcases lt_or_gt_of_ne hij with h | h
    · exact ⟨i, j, h, hj, pi, pj⟩
    · exact ⟨j, i, h, hi, pj, pi⟩

/-- a repeated substring is continued by an inner node -/
theorem SuffixInv.repeated_inner {s : SuffixTrie} (I : SuffixInv s) {p : Word}
    (h : RepeatedIn s.word p) : ∃ x n, p <+: x ∧ InnerAt s.rt.root n x := by
  obtain ⟨i, j, hij, hj, hi, hj'⟩ := h
  obtain ⟨x, a, b, y, z, hx, hab, k1, k2⟩ := I.branches (by omega) hj (by omega : i ≠ j)
  have m1 := I.trie.keys _ (mem_suffixKeys.2 ⟨i, by omega, rfl⟩)
  have m2 := I.trie.keys _ (mem_suffixKeys.2 ⟨j, hj, rfl⟩)
  have hxi : x <+: suffixKey s.word i := by rw [k1]; exact ⟨_, rfl⟩
  rw [k1] at m1
  rw [k2] at m2
  obtain ⟨g, hg⟩ := strs_branch x.length le_rfl I.trie.ok hab m1 m2
  obtain ⟨v, hv, _⟩ := (mem_strs I.trie.ok).1 hg
  obtain ⟨n, hn⟩ := hv.depth
  refine ⟨x, n, hx.2.2 p hi hj', v, hn, ?_⟩
  rw [ne_eq, hv.leaf_iff I.trie.ok]
  intro hall
  have := hall _ _ m1 ⟨_, rfl⟩
  simp at this

/-- the inner nodes below the root have no `$` -/
theorem SuffixInv.inner_dollar {s : SuffixTrie} (I : SuffixInv s) {n : Nat} {p : Word}
    (h : InnerAt s.rt.root n p) : '$' ∉ p := by
  by_cases hp : p = []
  · rw [hp]; simp
  · obtain ⟨i, _, _, _, hi, _⟩ := I.inner_repeated h hp
    exact fun hd => I.dollar (List.mem_of_mem_drop (hi.subset hd))

/-- the parent of the leaf of a suffix spells the longest prefix that occurs elsewhere -/
theorem SuffixInv.parent {s : SuffixTrie} (I : SuffixInv s) {i : Nat} (hi : i ≤ s.word.length) :
    ∃ x, s.rt.ancestorsData (suffixKey s.word i) = .ok x ∧ x <+: s.word.drop i ∧
      (x ≠ [] → ∃ k ≤ s.word.length, k ≠ i ∧ x <+: s.word.drop k) ∧
      ∀ y k, k ≤ s.word.length → k ≠ i → y <+: s.word.drop i → y <+: s.word.drop k → y <+: x := by
  have hk := mem_suffixKeys.2 ⟨i, hi, rfl⟩
  obtain ⟨p0, e, hp, hmax⟩ := I.trie.parent hk (suffixKey_ne _ _)
  obtain ⟨v, hv, _⟩ := (mem_strs I.trie.ok).1 (I.trie.keys _ hk)
  obtain ⟨n, hn⟩ := hv.depth
  have hin : ∃ n, InnerAt s.rt.root n p0 := by
    generalize hg : suffixKey s.word i = k at *
    cases hn with
    | root => exact absurd hg (suffixKey_ne _ _)
    | child hd hc =>
      rw [ancestorsData_spec I.trie.ok hd.at hc] at e
      cases e
      exact ⟨_, _, hd, Kids.ne_nil_iff.2 ⟨_, _, hc⟩⟩
  obtain ⟨n, hin⟩ := hin
  refine ⟨p0, e, (prefix_key (I.inner_dollar hin) i).1 hp, ?_, ?_⟩
  · intro hne
    obtain ⟨a, b, hab, hb, h1, h2⟩ := I.inner_repeated hin hne
    by_cases ha : a = i
    · exact ⟨b, hb, by omega, h2⟩
    · exact ⟨a, by omega, ha, h1⟩
  · intro y k hk hne h1 h2
    obtain ⟨x, a, b, u, v, hx, hab, k1, k2⟩ := I.branches hi hk (Ne.symm hne)
    have m1 := I.trie.keys _ (mem_suffixKeys.2 ⟨i, hi, rfl⟩)
    have m2 := I.trie.keys _ (mem_suffixKeys.2 ⟨k, hk, rfl⟩)
    rw [k1] at m1
    rw [k2] at m2
    obtain ⟨g, hg⟩ := strs_branch x.length le_rfl I.trie.ok hab m1 m2
    exact (hx.2.2 y h1 h2).trans
      (hmax x g hg (by rw [k1]; exact ⟨_, rfl⟩) (by rw [k1]; simp))

theorem SuffixInv.height {s : SuffixTrie} (I : SuffixInv s) : s.height = s.rt.root.rose.height := by
  rw [SuffixTrie.height, Trie.height, I.isEmpty]
  simp

theorem SuffixInv.countLeaves {s : SuffixTrie} (I : SuffixInv s) :
    s.countLeaves = s.word.length + 1 := by
  rw [SuffixTrie.countLeaves, Trie.leaves, I.isEmpty]
  simp only [Bool.false_eq_true, if_false]
  rw [I.trie.count_leaves (suffixKeys_free I.dollar) (suffixKeys_nodup I.dollar) I.nil_key I.keys_ne
    (.here _)]
  simp [suffixKeys]

/-- for a trie of height at most three all inner nodes but the root are considered -/
theorem SuffixInv.exact {s : SuffixTrie} (I : SuffixInv s) (hw : s.word ≠ []) (hh : s.height ≤ 3)
    {L : List Word} (e : s.longestRepeated = .ok L) (x : Word) :
    x ∈ L ↔ RepeatedIn s.word x ∧ ∀ y, RepeatedIn s.word y → y.length ≤ x.length := by
  obtain ⟨L', e', _, hL⟩ := I.longestRepeated
  rw [e] at e'
  cases e'
  rw [I.height] at hh
  have hlen : 0 < s.word.length := List.length_pos_iff.2 hw
  have hnil : RepeatedIn s.word [] := ⟨0, s.word.length, hlen, le_rfl, List.nil_prefix, List.nil_prefix⟩
  have hrep : ∀ {n p}, InnerAt s.rt.root n p → RepeatedIn s.word p := by
    intro n p h
    by_cases hp : p = []
    · rw [hp]; exact hnil
    · exact I.inner_repeated h hp
  -- some considered node is at least as long as any repeated substring
  have hbig : ∀ y, RepeatedIn s.word y →
      ∃ z n, InnerAt s.rt.root n z ∧ s.rt.root.rose.height ≤ n + 2 ∧ y.length ≤ z.length := by
    intro y hy
    obtain ⟨z, n, hyz, hz⟩ := I.repeated_inner hy
    by_cases hn : s.rt.root.rose.height ≤ n + 2
    · exact ⟨z, n, hz, hn, hyz.length_le⟩
    · have : n = 0 := by omega
      subst this
      obtain ⟨v, hd, _⟩ := hz
      cases hd
      have hy0 : y = [] := List.prefix_nil.1 hyz
      obtain ⟨p, v, hd⟩ := (depth_iff I.trie.ok _).2 (le_refl s.rt.root.rose.height)
      have h3 : s.rt.root.rose.height = 3 := by omega
      rw [h3] at hd
      cases hd with
      | child hd hc =>
        exact ⟨_, 2, ⟨_, hd, Kids.ne_nil_iff.2 ⟨_, _, hc⟩⟩, by omega, by simp [hy0]⟩
  rw [hL]
  constructor
  · rintro ⟨⟨n, hx, hn⟩, hmax⟩
    refine ⟨hrep hx, ?_⟩
    intro y hy
    obtain ⟨z, m, hz, hm, hl⟩ := hbig y hy
    exact hl.trans (hmax z m hz hm)
  · rintro ⟨hx, hmax⟩
    have hxx : ∃ n, InnerAt s.rt.root n x := by
      obtain ⟨z, n, hxz, hz⟩ := I.repeated_inner hx
      have := hxz.eq_of_length_le (hmax z (hrep hz))
      subst this
      exact ⟨n, hz⟩
    obtain ⟨n, hn⟩ := hxx
    refine ⟨?_, fun y n hy _ => hmax y (hrep hy)⟩
    by_cases hh' : s.rt.root.rose.height ≤ n + 2
    · exact ⟨n, hn, hh'⟩
    · exfalso
      have : n = 0 := by omega
      subst this
      obtain ⟨v, hd, _⟩ := hn
      cases hd
      obtain ⟨p, v, hd⟩ := (depth_iff I.trie.ok _).2 (le_refl s.rt.root.rose.height)
      have h3 : s.rt.root.rose.height = 3 := by omega
      rw [h3] at hd
      cases hd with
      | child hd hc =>
        have h4 := hmax _ (hrep ⟨_, hd, Kids.ne_nil_iff.2 ⟨_, _, hc⟩⟩)
        cases hd with
        | child hd' hc' =>
          have h5 := ((I.trie.ok |> (hd'.at.ok)).child hc').1
          rw [List.length_append] at h4
          cases hdd : TNode.data _ with
          | nil => rw [hdd] at h5; cases h5
          | cons a d => rw [hdd] at h4; simp at h4

/-- something is returned -/
theorem SuffixInv.lrs_ne {s : SuffixTrie} (I : SuffixInv s) {L : List Word}
    (e : s.longestRepeated = .ok L) : L ≠ [] := by
  obtain ⟨L', e', _, hL⟩ := I.longestRepeated
  rw [e] at e'
  cases e'
  have hpos : 1 ≤ s.rt.root.rose.height := by
    rw [← depth_iff I.trie.ok]
    obtain ⟨c, v, hc⟩ := Kids.ne_nil_iff.1 I.root_kids
    exact ⟨_, v, NodeDepth.child .root hc⟩
  -- the considered strings have a longest one
  have key : ∀ k x n, InnerAt s.rt.root n x → s.rt.root.rose.height ≤ n + 2 →
      s.word.length ≤ x.length + k → ∃ z, z ∈ L := by
    intro k
    induction k with
    | zero =>
      intro x n hx hn hl
      refine ⟨x, (hL x).2 ⟨⟨n, hx, hn⟩, ?_⟩⟩
      intro y m hy _
      by_cases hy0 : y = []
      · simp [hy0]
      · obtain ⟨i, j, _, _, h, _⟩ := I.inner_repeated hy hy0
        have := h.length_le
        rw [List.length_drop] at this
        omega
    | succ k ih =>
      intro x n hx hn hl
      by_cases hall : ∀ y m, InnerAt s.rt.root m y → s.rt.root.rose.height ≤ m + 2 →
          y.length ≤ x.length
      · exact ⟨x, (hL x).2 ⟨⟨n, hx, hn⟩, hall⟩⟩
      · simp only [not_forall] at hall
        obtain ⟨y, m, hy, hm, hlt⟩ := hall
        exact ih y m hy hm (by omega)
  obtain ⟨p, v, hd⟩ := (depth_iff I.trie.ok _).2 (le_refl s.rt.root.rose.height)
  obtain ⟨H, hH⟩ : ∃ H, s.rt.root.rose.height = H + 1 := ⟨_, (Nat.succ_pred_eq_of_pos hpos).symm⟩
  rw [hH] at hd
  cases hd with
  | child hd hc =>
    obtain ⟨z, hz⟩ := key s.word.length _ H ⟨_, hd, Kids.ne_nil_iff.2 ⟨_, _, hc⟩⟩ (by omega) (by omega)
    exact List.ne_nil_of_mem hz

/-- the number of nodes -/
theorem SuffixInv.len {s : SuffixTrie} (I : SuffixInv s) :
    (s.word.length : Int) + 2 ≤ s.len ∧ s.len ≤ 2 * s.word.length + 2 := by
  rw [SuffixTrie.len, I.trie.count]
  have hk : (suffixKeys s.word).length = s.word.length + 1 := by simp [suffixKeys]
  constructor
  · have hsub : [] :: suffixKeys s.word ⊆ s.rt.root.strs.map Prod.fst := by
      intro q hq
      rcases List.mem_cons.1 hq with rfl | hq
      · simp [TNode.strs]
      · exact List.mem_map.2 ⟨_, I.trie.keys q hq, rfl⟩
    have hn : ([] :: suffixKeys s.word).Nodup :=
      List.nodup_cons.2 ⟨I.nil_key, suffixKeys_nodup I.dollar⟩
    have := (List.subperm_of_subset hn hsub).length_le
    rw [List.length_cons, List.length_map, hk] at this
    rw [TNode.size]
    omega
  · rcases I.trie.bound with h | ⟨h, _⟩
    · omega
    · exact absurd h I.keys_ne

end Extra
