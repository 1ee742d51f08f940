import Verif.Trees.SuffixDeep
import Verif.Trees.RadixRefine

/-!
# Heights, leaves and levels of tries

Lemmas for C80, for any trie whose keys are the first characters of the labels.
-/

namespace Extra

/-! ## Levels -/

theorem Kids.level_sub (n : Nat) : ∀ (ks : Kids) (p : Word),
    (((ks.refs p).flatMap (RTree.nodesAt n)).map RTree.data).Sublist
      (ks.strs.map (fun e => p ++ e.1)) := by
  induction n with
  | zero =>
    intro ks
    induction ks with
    | nil => intro p; simp [Kids.refs]
    | cons k d b ks rest _ ih =>
      intro p
      simp only [Kids.refs, List.flatMap_cons, RTree.nodesAt, List.singleton_append, List.map_cons,
        RTree.data, Kids.strs, List.map_append]
      refine List.Sublist.cons_cons _ ?_
      exact (ih p).trans (List.sublist_append_right _ _)
  | succ n ihn =>
    intro ks
    induction ks with
    | nil => intro p; simp [Kids.refs]
    | cons k d b ks rest _ ih =>
      intro p
      simp only [Kids.refs, List.flatMap_cons, RTree.nodesAt, List.map_append, Kids.strs, List.map_cons,
        RTree.children]
      refine List.Sublist.cons _ (List.Sublist.append ?_ (ih p))
      have := ihn ks (p ++ d)
      simpa [List.map_map, Function.comp_def, List.append_assoc] using this

theorem TNode.level_nodup {t : TNode} (h : t.kids.Ok) (n : Nat) :
    ((t.refs.nodesAt n).map RTree.data).Nodup := by
  cases n with
  | zero => simp [RTree.nodesAt]
  | succ n =>
    rw [RTree.nodesAt, TNode.refs, RTree.children]
    refine List.Nodup.sublist (Kids.level_sub n t.kids []) ?_
    simpa using Kids.nodup h

theorem Kids.refs_rose (p : Word) : ∀ {ks : Kids}, ks.Ok →
    List.Forall₂ (fun s r => ∃ c v, ks.child c = some v ∧ s = refsAt (p ++ v.data) v ∧ r = v.rose)
      (ks.refs p) ks.rose
  | .nil, _ => .nil
  | .cons k d b ks rest, ⟨_, h2, _, h4⟩ => by
    rw [Kids.refs, Kids.rose]
    refine .cons ⟨k, ⟨d, b, ks⟩, by simp [Kids.child], rfl, rfl⟩ ?_
    refine (Kids.refs_rose p h4).imp ?_
    rintro s r ⟨c, v, hc, hs, hr⟩
    refine ⟨c, v, ?_, hs, hr⟩
    rw [Kids.child, if_neg]
    · exact hc
    · rintro rfl; rw [h2] at hc; cases hc

theorem forall2_flatMap {A B C D : Type} {R : A → B → Prop} {S : C → D → Prop} {f : A → List C}
    {g : B → List D} (h : ∀ a b, R a b → List.Forall₂ S (f a) (g b)) : ∀ {l : List A} {m : List B},
    List.Forall₂ R l m → List.Forall₂ S (l.flatMap f) (m.flatMap g)
  | [], [], .nil => .nil
  | a :: l, b :: m, .cons hab hlm => by
    rw [List.flatMap_cons, List.flatMap_cons]
    exact List.rel_append (h a b hab) (forall2_flatMap h hlm)

/-- the levels as `Tree`'s methods see them and the strings of their nodes -/
theorem refs_rose_level {t : TNode} (h : t.kids.Ok) : ∀ n : Nat,
    List.Forall₂ (fun s r => ∃ p v, NodeDepth t n p v ∧ s = refsAt p v ∧ r = v.rose)
      (t.refs.nodesAt n) (t.rose.nodesAt n)
  | 0 => .cons ⟨[], t, .root, rfl, rfl⟩ .nil
  | n + 1 => by
    rw [RTree.nodesAt_succ', RTree.nodesAt_succ']
    refine forall2_flatMap ?_ (refs_rose_level h n)
    rintro s r ⟨p, v, hd, rfl, rfl⟩
    refine (Kids.refs_rose p (hd.at.ok h)).imp ?_
    rintro s r ⟨c, u, hc, rfl, rfl⟩
    exact ⟨p ++ u.data, u, hd.child hc, rfl, rfl⟩

/-- the labels of a level -/
def TNode.row (t : TNode) (n : Nat) : List Word := (t.rose.nodesAt n).map RTree.data

theorem TNode.row_spec {t : TNode} (h : t.kids.Ok) (n : Nat) : ∃ ps : List Word, ps.Nodup ∧
    (∀ p, p ∈ ps ↔ ∃ v, NodeDepth t n p v) ∧
    List.Forall₂ (fun p d => ∃ v, NodeDepth t n p v ∧ d = v.data) ps (t.row n) := by
  refine ⟨(t.refs.nodesAt n).map RTree.data, TNode.level_nodup h n, fun p => ?_, ?_⟩
  · rw [List.mem_map]
    constructor
    · rintro ⟨s, hs, rfl⟩
      obtain ⟨p, v, hd, rfl⟩ := (mem_refs_nodesAt h n s).1 hs
      exact ⟨v, hd⟩
    · rintro ⟨v, hd⟩
      exact ⟨refsAt p v, (mem_refs_nodesAt h n _).2 ⟨p, v, hd, rfl⟩, rfl⟩
  · rw [TNode.row, List.forall₂_map_left_iff, List.forall₂_map_right_iff]
    refine (refs_rose_level h n).imp ?_
    rintro s r ⟨p, v, hd, rfl, rfl⟩
    exact ⟨v, hd, rfl⟩

theorem kids_of_empty {t : Trie} (hc : t.count = t.root.size) :
    t.isEmpty = true ↔ t.root.kids = .nil := by
  rw [Trie.isEmpty, decide_eq_true_eq, hc, TNode.size_eq]
  cases t.root.kids with
  | nil => simp [Kids.size, Kids.strs]
  | cons k d b ks rest => rw [Kids.size_cons]; simp; omega

theorem Trie.height_eq {t : Trie} (hc : t.count = t.root.size) : t.height = t.root.rose.height := by
  rw [Trie.height]
  split_ifs with h
  · rw [kids_of_empty hc] at h
    rw [TNode.rose, h, Kids.rose, RTree.height, RTree.heightAll]
  · rfl

/-- `get_nodes_per_level` and `to_list` -/
theorem Trie.rows_spec {t : Trie} (hc : t.count = t.root.size) :
    t.levels = .ok ((List.range' 1 t.height).map t.root.row) ∧
    t.toList = .ok ((List.range' 1 t.height).map t.root.row).flatten := by
  have hh := Trie.height_eq hc
  by_cases h : t.isEmpty = true
  · have h0 : t.height = 0 := by rw [Trie.height, if_pos h]
    rw [Trie.levels, Trie.toList, if_pos h, if_pos h, h0]
    exact ⟨rfl, rfl⟩
  · rw [Trie.levels, Trie.toList, if_neg h, if_neg h, hh]
    have e := treeLevels_some t.root.rose
    rw [treeLevels] at e
    constructor
    · rw [e]
      show Except.ok (t.root.rose.levels.drop 1) = _
      rw [RTree.levels, List.range_eq_range', List.range'_succ]
      simp [TNode.row]
    · have hl := RTree.height_lt_count t.root.rose
      have hn : t.root.rose.nodesAt 1 = t.root.rose.children := by
        rw [RTree.nodesAt]; simp [RTree.nodesAt, List.flatMap_singleton']
      have := treeIterLoop_eq t.root.rose t.root.rose.height 1
        (RTree.countAll t.root.rose.children 0 + 1) [] (by omega) (by
          have h1 := RTree.countAll_eq t.root.rose.children 0 1
          have h2 := RTree.countAll_eq t.root.rose.children 0 0
          have h3 : t.root.rose.count = RTree.countAll t.root.rose.children 1 := by
            rw [TNode.rose, RTree.count]; rfl
          omega)
      rw [hn, List.nil_append] at this
      rw [this]
      rfl

/-! ## Leaves -/

theorem Trie.leaves_spec {t : Trie} (ho : t.root.kids.Ok) (hc : t.count = t.root.size)
    {S : List Word} (hw : ∀ q, (q, true) ∈ t.root.strs ↔ q ∈ S) (hn : S.Nodup) (hnil : [] ∉ S)
    (hcov : ∀ q b, (q, b) ∈ t.root.strs → reaches S q = true) :
    t.leaves = (S.filter (fun w => S.all (fun v => !w.isPrefixOf v || decide (v = w)))).length := by
  rw [Trie.leaves]
  split_ifs with h
  · rw [kids_of_empty hc] at h
    have : S = [] := by
      refine List.eq_nil_iff_forall_not_mem.2 fun q hq => ?_
      have := (hw q).2 hq
      simp only [TNode.strs, h, Kids.strs, List.mem_singleton, Prod.mk.injEq] at this
      rw [this.1] at hq
      exact hnil hq
    rw [this]; rfl
  · have hk : t.root.kids ≠ .nil := fun e => h ((kids_of_empty hc).2 e)
    rw [TNode.leaves_eq]
    apply List.Perm.length_eq
    have hend : t.root.ends.Nodup := by
      rw [TNode.ends, if_neg hk]
      exact (Kids.nodup ho).sublist (Kids.ends_sub _)
    rw [List.perm_ext_iff_of_nodup hend (hn.filter _)]
    intro q
    rw [TNode.mem_ends ho, List.mem_filter, List.all_eq_true]
    simp only [Bool.or_eq_true, Bool.not_eq_true', decide_eq_true_eq, ← Bool.not_eq_true,
      List.isPrefixOf_iff_prefix]
    constructor
    · rintro ⟨v, hv, hvk⟩
      have hq : ∀ x b, (x, b) ∈ t.root.strs → q <+: x → x = q := (hv.leaf_iff ho).1 hvk
      have hqne : q ≠ [] := by
        rintro rfl
        have := hv.unique ho (.here _)
        rw [this] at hvk
        exact hk hvk
      have hm := hcov q _ ((mem_strs ho).2 ⟨v, hv, rfl⟩)
      rw [reaches_iff] at hm
      rcases hm with e | ⟨w, hwS, hqw⟩
      · exact absurd e hqne
      · have := hq w _ ((hw w).2 hwS) hqw
        subst this
        refine ⟨hwS, fun x hx => ?_⟩
        by_cases hp : w <+: x
        · exact Or.inr (hq x _ ((hw x).2 hx) hp)
        · exact Or.inl hp
    · rintro ⟨hqS, hall⟩
      obtain ⟨v, hv, _⟩ := (mem_strs ho).1 ((hw q).2 hqS)
      refine ⟨v, hv, (hv.leaf_iff ho).2 fun x b hx hp => ?_⟩
      have hm := hcov x b hx
      rw [reaches_iff] at hm
      rcases hm with e | ⟨w, hwS, hxw⟩
      · subst e; exact (List.prefix_nil.1 hp).symm
      · rcases hall w hwS with hh | rfl
        · exact absurd (hp.trans hxw) hh
        · exact hxw.eq_of_length_le hp.length_le

/-! ## Depths -/

/-- how many of the strings are non-empty prefixes of `p` -/
def depthIn (N : List Word) (p : Word) : Nat :=
  (N.filter (fun q => decide (q ≠ []) && q.isPrefixOf p)).length

theorem NodeDepth.between {t u v : TNode} (ho : t.kids.Ok) {n : Nat} {p : Word} {c : Char}
    (h : NodeDepth t n p u) (hc : u.kids.child c = some v) {q : Word} {b : Bool}
    (hq : (q, b) ∈ t.strs) (hp : q <+: p ++ v.data) : q <+: p ∨ q = p ++ v.data := by
  rcases List.prefix_or_prefix_of_prefix hp (List.prefix_append p v.data) with h1 | ⟨r, rfl⟩
  · exact Or.inl h1
  · rw [List.prefix_append_right_inj] at hp
    rw [h.at.strs ho] at hq
    cases r with
    | nil => left; simp
    | cons a r =>
      obtain ⟨u', q', hu', e, _⟩ := (TNode.strs_cons (h.at.ok ho)).1 hq
      have hd := ((h.at.ok ho).child hc).1
      obtain ⟨s, hs⟩ := hp
      have ha : a = c := by
        rw [← hs] at hd; simpa using hd
      subst ha
      rw [hc] at hu'
      cases hu'
      right
      have h1 : (a :: r).length ≤ v.data.length := by rw [← hs]; simp
      have h2 := congrArg List.length e
      rw [List.length_append] at h2
      have : q' = [] := List.eq_nil_of_length_eq_zero (by omega)
      rw [e, this, List.append_nil]

/-- the depth of a node is the number of nodes on the way to it -/
theorem NodeDepth.depthIn {t v : TNode} (ho : t.kids.Ok) {N : List Word} (hN : N.Nodup)
    (hm : ∀ q, (∃ b, (q, b) ∈ t.strs) ↔ q ∈ N) {n : Nat} {p : Word} (h : NodeDepth t n p v) :
    Extra.depthIn N p = n := by
  induction h with
  | root =>
    rw [Extra.depthIn, List.length_eq_zero_iff, List.filter_eq_nil_iff]
    intro q _
    simp only [Bool.and_eq_true, decide_eq_true_eq, List.isPrefixOf_iff_prefix, not_and]
    exact fun h1 h2 => h1 (List.prefix_nil.1 h2)
  | @child n p u w c h hc ih =>
    have hd := data_ne ((h.at.ok ho).child hc).1
    have hmem : p ++ w.data ∈ N :=
      (hm _).1 ⟨w.word, (mem_strs ho).2 ⟨w, (h.child hc).at, rfl⟩⟩
    rw [← ih, Extra.depthIn, Extra.depthIn]
    have : (N.filter (fun q => decide (q ≠ []) && q.isPrefixOf (p ++ w.data))).Perm
        ((p ++ w.data) :: N.filter (fun q => decide (q ≠ []) && q.isPrefixOf p)) := by
      rw [List.perm_ext_iff_of_nodup (hN.filter _)]
      · intro q
        simp only [List.mem_cons, List.mem_filter, Bool.and_eq_true, decide_eq_true_eq,
          List.isPrefixOf_iff_prefix]
        constructor
        · rintro ⟨h1, h2, h3⟩
          obtain ⟨b, hb⟩ := (hm q).2 h1
          rcases h.between ho hc hb h3 with k | k
          · exact Or.inr ⟨h1, h2, k⟩
          · exact Or.inl k
        · rintro (rfl | ⟨h1, h2, h3⟩)
          · exact ⟨hmem, by simp [hd], List.prefix_rfl⟩
          · exact ⟨h1, h2, h3.trans (List.prefix_append _ _)⟩
      · rw [List.nodup_cons]
        refine ⟨?_, hN.filter _⟩
        simp only [List.mem_filter, Bool.and_eq_true, decide_eq_true_eq, List.isPrefixOf_iff_prefix,
          not_and]
        intro _ _ h3
        have h4 := h3.length_le
        have := List.length_pos_of_ne_nil hd
        rw [List.length_append] at h4
        omega
    rw [this.length_eq]; rfl

/-- in a plain trie the depth of a node is the length of its string -/
theorem TrieInv.depth {t : Trie} {S : List Word} (I : TrieInv t S) {n : Nat} {p : Word} {v : TNode}
    (h : NodeDepth t.root n p v) : p.length = n := by
  induction h with
  | root => rfl
  | child h hc ih => rw [List.length_append, I.single h.at hc, ih]; rfl

end Extra
