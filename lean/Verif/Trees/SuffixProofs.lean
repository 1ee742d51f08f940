import Verif.Trees.RadixProofs
import Verif.Trees.SuffixTrie

/-!
# The nodes of a `SuffixTrie`
-/

set_option linter.unusedSimpArgs false

namespace Extra

/-! ## Nodes of a trie -/

/-- two nodes that go apart after `x` have a node at `x` -/
theorem strs_branch : ∀ (n : Nat) {t : TNode} {x y z : Word} {a b : Char} {e f : Bool},
    x.length ≤ n → t.kids.Ok → a ≠ b → (x ++ a :: y, e) ∈ t.strs → (x ++ b :: z, f) ∈ t.strs →
    ∃ g, (x, g) ∈ t.strs
  | _, t, [], _, _, _, _, _, _, _, h, _, _, _ => ⟨t.word, (TNode.strs_nil h).2 rfl⟩
  | 0, _, _ :: _, _, _, _, _, _, _, hn, _, _, _, _ => by simp at hn
  | n + 1, t, c :: x, y, z, a, b, e, f, hn, h, hab, h1, h2 => by
    rw [List.cons_append] at h1 h2
    obtain ⟨u, q1, hu, e1, m1⟩ := (TNode.strs_cons h).1 h1
    obtain ⟨u', q2, hu', e2, m2⟩ := (TNode.strs_cons h).1 h2
    rw [hu] at hu'
    cases hu'
    obtain ⟨hd, hk⟩ := h.child hu
    have hpos := List.length_pos_of_ne_nil (data_ne hd)
    have p1 : u.data <+: (c :: x) ++ a :: y := ⟨q1, e1.symm⟩
    have p2 : u.data <+: (c :: x) ++ b :: z := ⟨q2, e2.symm⟩
    by_cases hl : u.data.length ≤ (c :: x).length
    · obtain ⟨x', hx'⟩ := List.prefix_of_prefix_length_le p1 ⟨_, rfl⟩ hl
      rw [← List.cons_append, ← hx', List.append_assoc, List.append_cancel_left_eq] at e1 e2
      rw [← e1] at m1
      rw [← e2] at m2
      have hlen := congrArg List.length hx'
      rw [List.length_append, List.length_cons] at hlen
      rw [List.length_cons] at hn
      obtain ⟨g, hg⟩ := strs_branch n (by omega) hk hab m1 m2
      exact ⟨g, by rw [← hx']; exact (TNode.strs_child h hu).2 hg⟩
    · exfalso
      have l1 : (c :: x) ++ [a] <+: u.data :=
        List.prefix_of_prefix_length_le (l₃ := (c :: x) ++ a :: y) (by simp) p1
          (by rw [List.length_append, List.length_singleton]; omega)
      have l2 : (c :: x) ++ [b] <+: u.data :=
        List.prefix_of_prefix_length_le (l₃ := (c :: x) ++ b :: z) (by simp) p2
          (by rw [List.length_append, List.length_singleton]; omega)
      have := (List.prefix_of_prefix_length_le l1 l2 (by simp)).eq_of_length (by simp)
      simp at this
      exact hab this

/-- a node on the way to another one is on the way to its parent -/
theorem NodeAt.above {t vx v0 v : TNode} {x p0 : Word} {c : Char} (h : t.kids.Ok)
    (hx : NodeAt t x vx) (h0 : NodeAt t p0 v0) (hv : v0.kids.child c = some v)
    (hp : x <+: p0 ++ v.data) (hne : x ≠ p0 ++ v.data) : x <+: p0 := by
  rcases List.prefix_or_prefix_of_prefix hp ⟨_, rfl⟩ with hh | ⟨y, rfl⟩
  · exact hh
  · cases y with
    | nil => simp
    | cons a y =>
      exfalso
      have hm := (mem_strs h).2 ⟨vx, hx, rfl⟩
      rw [h0.strs h] at hm
      obtain ⟨u, q, hu, e, _⟩ := (TNode.strs_cons (h0.ok h)).1 hm
      rw [List.prefix_append_right_inj] at hp
      obtain ⟨hd, _⟩ := (h0.ok h).child hv
      have hac : a = c := by
        obtain ⟨z, hz⟩ := hp
        rw [← hz] at hd
        simpa using hd
      subst hac
      rw [hv] at hu
      cases hu
      apply hne
      have : v.data <+: a :: y := ⟨q, e.symm⟩
      rw [hp.eq_of_length_le this.length_le]

theorem ancestorsLoop_spec {t : Trie} (h : t.root.kids.Ok) : ∀ (n : Nat) {p : Word} {v : TNode}
    (acc : List Word), p.length < n → NodeAt t.root p v →
    ∃ xs, ancestorsLoop t n p acc = .ok xs ∧ xs.reverse.flatten = p ++ acc.reverse.flatten
  | 0, _, _, _, hn, _ => by omega
  | n + 1, p, v, acc, hn, hv => by
    rw [ancestorsLoop]
    by_cases hp : p = []
    · rw [if_pos hp]; exact ⟨acc, rfl, by rw [hp]; rfl⟩
    · rw [if_neg hp, hv.at h]
      obtain ⟨p0, v0, c, e, h0, hc⟩ := hv.snoc h hp
      have hpos := List.length_pos_of_ne_nil (data_ne ((h0.ok h).child hc).1)
      have ht : p.take (p.length - v.data.length) = p0 := by
        rw [e, List.length_append, Nat.add_sub_cancel, List.take_left]
      have hl := congrArg List.length e
      rw [List.length_append] at hl
      simp only [ht]
      obtain ⟨xs, e1, e2⟩ := ancestorsLoop_spec h n (acc ++ [v.data]) (by omega) h0
      refine ⟨xs, e1, ?_⟩
      rw [e2, e]
      simp

/-- `_get_ancestors_data` gives the string of the parent -/
theorem ancestorsData_spec {t : Trie} (h : t.root.kids.Ok) {p0 : Word} {v0 v : TNode} {c : Char}
    (h0 : NodeAt t.root p0 v0) (hc : v0.kids.child c = some v) :
    t.ancestorsData (p0 ++ v.data) = .ok p0 := by
  have hd := data_ne ((h0.ok h).child hc).1
  have hne : p0 ++ v.data ≠ [] := by simp [hd]
  have hv := h0.trans (.child hc)
  rw [Trie.ancestorsData, if_neg hne, hv.at h]
  have ht : (p0 ++ v.data).take ((p0 ++ v.data).length - v.data.length) = p0 := by
    rw [List.length_append, Nat.add_sub_cancel, List.take_left]
  simp only [ht]
  obtain ⟨xs, e1, e2⟩ := ancestorsLoop_spec h ((p0 ++ v.data).length + 1) []
    (by rw [List.length_append]; omega) h0
  rw [e1]
  simp only [e2]
  simp

/-! ## Leaves -/

/-- the strings of the leaves below -/
def Kids.ends : Kids → List Word
  | .nil => []
  | .cons _ d _ ks rest => ((if ks = .nil then [[]] else ks.ends).map (d ++ ·)) ++ rest.ends

/-- the strings of the leaves at and below a node -/
def TNode.ends (t : TNode) : List Word := if t.kids = .nil then [[]] else t.kids.ends

theorem Kids.leavesAll_eq : ∀ (ks : Kids) (n : Nat),
    RTree.leavesAll ks.rose n = n + ks.ends.length
  | .nil, n => rfl
  | .cons k d b ks rest, n => by
    rw [Kids.rose, RTree.leavesAll, Kids.leavesAll_eq rest, Kids.ends, List.length_append,
      List.length_map]
    have : (RTree.node d ks.rose).leaves = (if ks = .nil then [[]] else ks.ends).length := by
      cases hk : ks with
      | nil => rfl
      | cons k' d' b' ks' rest' =>
        rw [if_neg (by simp), ← hk]
        have := Kids.leavesAll_eq ks 0
        rw [Nat.zero_add] at this
        rw [← this, hk, Kids.rose, RTree.leaves, RTree.leavesAll]
    rw [this]
    omega

theorem TNode.leaves_eq (t : TNode) : t.rose.leaves = t.ends.length := by
  rw [TNode.ends, TNode.rose]
  cases hk : t.kids with
  | nil => rfl
  | cons k' d' b' ks' rest' =>
    rw [if_neg (by simp), ← hk]
    have := Kids.leavesAll_eq t.kids 0
    rw [Nat.zero_add] at this
    rw [← this, hk, Kids.rose, RTree.leaves, RTree.leavesAll]

theorem Kids.mem_ends : ∀ {ks : Kids}, ks.Ok → ∀ {q : Word}, q ∈ ks.ends ↔
    ∃ c u q' v, ks.child c = some u ∧ q = u.data ++ q' ∧ NodeAt u q' v ∧ v.kids = .nil
  | .nil, _, q => by simp [Kids.ends, Kids.child]
  | .cons k d b ks rest, ⟨h1, h2, h3, h4⟩, q => by
    rw [Kids.ends, List.mem_append, Kids.mem_ends h4, List.mem_map]
    have own : ∀ q', q' ∈ (if ks = .nil then [[]] else ks.ends) ↔
        ∃ v, NodeAt ⟨d, b, ks⟩ q' v ∧ v.kids = .nil := by
      intro q'
      by_cases hk : ks = .nil
      · rw [if_pos hk, List.mem_singleton]
        subst hk
        constructor
        · rintro rfl; exact ⟨_, .here _, rfl⟩
        · rintro ⟨v, hv, _⟩
          cases hv with
          | here => rfl
          | step hu _ => cases hu
      · rw [if_neg hk, Kids.mem_ends h3]
        constructor
        · rintro ⟨c, u, q'', v, hu, rfl, hv, hn⟩
          exact ⟨v, .step (t := ⟨d, b, ks⟩) hu hv, hn⟩
        · rintro ⟨v, hv, hn⟩
          cases hv with
          | here => exact absurd hn hk
          | step hu hv => exact ⟨_, _, _, v, hu, rfl, hv, hn⟩
    constructor
    · rintro (⟨q', hq', rfl⟩ | ⟨c, u, q', v, hu, e, hv, hn⟩)
      · obtain ⟨v, hv, hn⟩ := (own q').1 hq'
        exact ⟨k, ⟨d, b, ks⟩, q', v, by rw [Kids.child, if_pos rfl], rfl, hv, hn⟩
      · refine ⟨c, u, q', v, ?_, e, hv, hn⟩
        rw [Kids.child]
        by_cases e' : k = c
        · subst e'; rw [h2] at hu; cases hu
        · rw [if_neg e']; exact hu
    · rintro ⟨c, u, q', v, hu, rfl, hv, hn⟩
      rw [Kids.child] at hu
      by_cases e' : k = c
      · rw [if_pos e'] at hu
        cases hu
        exact Or.inl ⟨q', (own q').2 ⟨v, hv, hn⟩, rfl⟩
      · rw [if_neg e'] at hu
        exact Or.inr ⟨c, u, q', v, hu, rfl, hv, hn⟩

theorem TNode.mem_ends {t : TNode} (h : t.kids.Ok) {q : Word} : q ∈ t.ends ↔
    ∃ v, NodeAt t q v ∧ v.kids = .nil := by
  rw [TNode.ends]
  by_cases hk : t.kids = .nil
  · rw [if_pos hk, List.mem_singleton]
    constructor
    · rintro rfl; exact ⟨_, .here _, hk⟩
    · rintro ⟨v, hv, _⟩
      cases hv with
      | here => rfl
      | step hu _ => rw [hk] at hu; cases hu
  · rw [if_neg hk, Kids.mem_ends h]
    constructor
    · rintro ⟨c, u, q'', v, hu, rfl, hv, hn⟩
      exact ⟨v, .step hu hv, hn⟩
    · rintro ⟨v, hv, hn⟩
      cases hv with
      | here => exact absurd hn hk
      | step hu hv => exact ⟨_, _, _, v, hu, rfl, hv, hn⟩

theorem Kids.ends_sub : ∀ (ks : Kids), ks.ends.Sublist (ks.strs.map Prod.fst)
  | .nil => by simp [Kids.ends]
  | .cons k d b ks rest => by
    rw [Kids.ends, Kids.strs, List.map_cons, List.map_append, List.map_map, ← List.cons_append]
    apply List.Sublist.append _ (Kids.ends_sub rest)
    have e : (Prod.fst ∘ fun e : Word × Bool => (d ++ e.1, e.2)) = (d ++ ·) ∘ Prod.fst := rfl
    rw [e, ← List.map_map]
    by_cases hk : ks = .nil
    · rw [if_pos hk, hk]; simp [Kids.strs]
    · rw [if_neg hk]
      exact ((Kids.ends_sub ks).map _).cons _

theorem TNode.ends_nodup {t : TNode} (h : t.kids.Ok) : t.ends.Nodup := by
  rw [TNode.ends]
  by_cases hk : t.kids = .nil
  · rw [if_pos hk]; simp
  · rw [if_neg hk]
    refine List.Nodup.sublist ?_ (TNode.nodup h)
    rw [TNode.strs, List.map_cons]
    exact (Kids.ends_sub _).cons _

/-- a node is a leaf iff no other node continues it -/
theorem NodeAt.leaf_iff {t v : TNode} {p : Word} (h : t.kids.Ok) (hv : NodeAt t p v) :
    v.kids = .nil ↔ ∀ q b, (q, b) ∈ t.strs → p <+: q → q = p := by
  constructor
  · rintro hk q b hq ⟨y, rfl⟩
    rw [hv.strs h, TNode.strs, hk] at hq
    simp [Kids.strs] at hq
    rw [hq.1, List.append_nil]
  · intro hall
    cases hk : v.kids with
    | nil => rfl
    | cons k d b ks rest =>
      exfalso
      have hc : v.kids.child k = some ⟨d, b, ks⟩ := by rw [hk, Kids.child, if_pos rfl]
      have := hall (p ++ d) b ((mem_strs h).2 ⟨_, hv.trans (.child hc), rfl⟩) ⟨d, rfl⟩
      exact data_ne ((hv.ok h).child hc).1 (by simpa using this)

/-! ## The trie of a set of keys -/

/-- the radix trie of the keys `K`, with no word marked -/
structure KeyTrie (t : Trie) (K : List Word) : Prop where
  ok : t.root.kids.Ok
  flag : ∀ q b, (q, b) ∈ t.root.strs → b = false
  keys : ∀ k ∈ K, (k, false) ∈ t.root.strs
  cover : ∀ q b, (q, b) ∈ t.root.strs → q = [] ∨ ∃ k ∈ K, q <+: k
  branch : ∀ q b, (q, b) ∈ t.root.strs → q ≠ [] → q ∈ K ∨
    ∃ a c x y e f, a ≠ c ∧ (q ++ a :: x, e) ∈ t.root.strs ∧ (q ++ c :: y, f) ∈ t.root.strs
  count : t.count = t.root.size
  bound : t.root.size ≤ 2 * K.length ∨ (K = [] ∧ t.root.size = 1)

theorem KeyTrie.new : KeyTrie Trie.new [] := by
  refine ⟨trivial, ?_, by simp, ?_, ?_, rfl, Or.inr ⟨rfl, rfl⟩⟩ <;> intro q b hq <;>
    simp [Trie.new, TNode.strs, Kids.strs] at hq
  · exact hq.2
  · exact Or.inl hq.1
  · exact fun h => absurd hq.1 h

theorem KeyTrie.add {t : Trie} {K : List Word} (I : KeyTrie t K) {k : Word} (hk : k ≠ [])
    (hb : '}' ∉ k) :
    ∃ t', t.radixAdd k = .ok (t', k) ∧ KeyTrie (t'.mark false k) (K ++ [k]) := by
  have hn : ¬ ∃ r, Lost t.root k r := by
    rintro ⟨r, p, v, e, _⟩
    rw [e] at hb
    simp at hb
  obtain ⟨t', e, h1, h2, h3, m, m1, m2, m3, m4⟩ := radixAdd_spec I.ok hk hn
  obtain ⟨v, hv, _⟩ := (mem_strs h1).1 ((m4 k true).2 (Or.inl ⟨rfl, rfl⟩))
  obtain ⟨k1, _, k3, k4, k5, k6⟩ := mark_spec false h1 hv
  have hs : ∀ q b, (q, b) ∈ (t'.mark false k).root.strs ↔ (q = k ∧ b = false) ∨
      (q ≠ k ∧ ((q, b) ∈ t.root.strs ∨ (b = false ∧ q = m ∧ ∀ b', (m, b') ∉ t.root.strs))) := by
    intro q b
    rw [k6, m4]
    by_cases hq : q = k <;> simp [hq]
  have old : ∀ q b, (q, b) ∈ t.root.strs → (q, b) ∈ (t'.mark false k).root.strs := by
    intro q b hq
    rw [hs]
    by_cases hqk : q = k
    · exact Or.inl ⟨hqk, I.flag q b hq⟩
    · exact Or.inr ⟨hqk, Or.inl hq⟩
  have self : (k, false) ∈ (t'.mark false k).root.strs := (hs _ _).2 (Or.inl ⟨rfl, rfl⟩)
  refine ⟨t', e, k1, ?_, ?_, ?_, ?_, ?_, ?_⟩
  · intro q b hq
    rcases (hs q b).1 hq with ⟨_, h⟩ | ⟨_, h | ⟨h, _⟩⟩
    · exact h
    · exact I.flag q b h
    · exact h
  · intro x hx
    rcases List.mem_append.1 hx with hx | hx
    · exact old _ _ (I.keys x hx)
    · rw [List.mem_singleton] at hx
      rw [hx]
      exact self
  · intro q b hq
    rcases (hs q b).1 hq with ⟨h, _⟩ | ⟨_, h | ⟨_, h, _⟩⟩
    · exact Or.inr ⟨k, by simp, by rw [h]⟩
    · rcases I.cover q b h with h | ⟨x, hx, hp⟩
      · exact Or.inl h
      · exact Or.inr ⟨x, by simp [hx], hp⟩
    · exact Or.inr ⟨k, by simp, by rw [h]; exact m1⟩
  · intro q b hq hne
    rcases (hs q b).1 hq with ⟨h, _⟩ | ⟨hqk, h | ⟨_, h, hmn⟩⟩
    · exact Or.inl (by simp [h])
    · rcases I.branch q b h hne with h | ⟨a, c, x, y, e1, e2, h1, h2, h3⟩
      · exact Or.inl (by simp [h])
      · exact Or.inr ⟨a, c, x, y, e1, e2, h1, old _ _ h2, old _ _ h3⟩
    · subst h
      right
      obtain ⟨n, bn, hnn, z, rfl⟩ := m2
      obtain ⟨z', rfl⟩ := m1
      cases z with
      | nil => rw [List.append_nil] at hnn; exact absurd hnn (hmn _)
      | cons a z =>
        cases z' with
        | nil => exact absurd (List.append_nil q).symm hqk
        | cons b' z' =>
          refine ⟨a, b', z, z', bn, false, ?_, old _ _ hnn, self⟩
          rintro rfl
          have := m3 (q ++ [a]) (by simp) ⟨_, _, hnn, by simp⟩
          have := this.length_le
          rw [List.length_append, List.length_singleton] at this
          omega
  · have := I.count
    omega
  · left
    have hsub : (t'.mark false k).root.strs.map Prod.fst ⊆ m :: k :: t.root.strs.map Prod.fst := by
      intro q hq
      obtain ⟨⟨q, b⟩, hm, rfl⟩ := List.mem_map.1 hq
      rcases (hs q b).1 hm with ⟨h, _⟩ | ⟨_, h | ⟨_, h, _⟩⟩
      · simp [h]
      · exact List.mem_cons_of_mem _ (List.mem_cons_of_mem _ (List.mem_map.2 ⟨_, h, rfl⟩))
      · simp [h]
    have hle := (List.subperm_of_subset (TNode.nodup k1) hsub).length_le
    rcases I.bound with h | ⟨rfl, h⟩
    · rw [TNode.size] at h ⊢
      simp only [List.length_cons, List.length_map, List.length_append, List.length_nil] at hle ⊢
      omega
    · obtain ⟨n, b, hn', hp⟩ := m2
      have hm0 : m = [] := by
        rw [TNode.size_eq] at h
        have hk0 : t.root.kids = .nil := by
          cases hks : t.root.kids with
          | nil => rfl
          | cons => rw [hks, Kids.size_cons] at h; omega
        rw [TNode.strs, hk0] at hn'
        simp [Kids.strs] at hn'
        rw [hn'.1] at hp
        exact List.prefix_nil.1 hp
      have hsub' : (t'.mark false k).root.strs.map Prod.fst ⊆ k :: t.root.strs.map Prod.fst := by
        intro q hq
        rcases List.mem_cons.1 (hsub hq) with h | h
        · refine List.mem_cons_of_mem _ ?_
          rw [h, hm0]
          simp [TNode.strs]
        · exact h
      have hle := (List.subperm_of_subset (TNode.nodup k1) hsub').length_le
      rw [TNode.size] at h ⊢
      simp only [List.length_cons, List.length_map, List.length_append, List.length_nil] at hle ⊢
      omega

/-- no key starts another one -/
def PrefixFree (K : List Word) : Prop := ∀ a ∈ K, ∀ b ∈ K, a <+: b → a = b

/-- the leaves are the keys -/
theorem KeyTrie.leaf_iff {t : Trie} {K : List Word} (I : KeyTrie t K) (hf : PrefixFree K)
    {p : Word} {v : TNode} (hv : NodeAt t.root p v) (hp : p ≠ []) : v.kids = .nil ↔ p ∈ K := by
  have hm := (mem_strs I.ok).2 ⟨v, hv, rfl⟩
  rw [hv.leaf_iff I.ok]
  constructor
  · intro hall
    rcases I.branch p _ hm hp with h | ⟨a, c, x, y, e, f, _, h, _⟩
    · exact h
    · have := hall _ _ h ⟨_, rfl⟩
      simp at this
  · intro hk q b hq hpq
    rcases I.cover q b hq with rfl | ⟨k, hk', hqk⟩
    · exact absurd (List.prefix_nil.1 hpq) hp
    · have := hf p hk k hk' (hpq.trans hqk)
      subst this
      exact hqk.eq_of_length_le hpq.length_le

/-- the number of leaves below a node is the number of keys that continue it -/
theorem KeyTrie.count_leaves {t : Trie} {K : List Word} (I : KeyTrie t K) (hf : PrefixFree K)
    (hn : K.Nodup) (hne : [] ∉ K) (hK : K ≠ []) {p : Word} {v : TNode} (hv : NodeAt t.root p v) :
    v.rose.leaves = (K.filter (fun k => decide (p <+: k))).length := by
  rw [TNode.leaves_eq, ← List.length_map (as := v.ends) (p ++ ·)]
  apply List.Perm.length_eq
  have hvk := hv.ok I.ok
  rw [List.perm_ext_iff_of_nodup]
  · intro q
    rw [List.mem_map, List.mem_filter, decide_eq_true_eq]
    simp only [TNode.mem_ends hvk]
    constructor
    · rintro ⟨q', ⟨u, hu, hk⟩, rfl⟩
      have hu' := hv.trans hu
      refine ⟨?_, ⟨_, rfl⟩⟩
      by_cases hp : p ++ q' = []
      · exfalso
        rw [hp] at hu'
        have := (hu'.leaf_iff I.ok).1 hk
        cases K with
        | nil => exact hK rfl
        | cons k K =>
          have := this k false (I.keys k (by simp)) List.nil_prefix
          subst this
          simp at hne
      · exact (I.leaf_iff hf hu' hp).1 hk
    · rintro ⟨hk, q', rfl⟩
      have h1 := I.keys _ hk
      rw [hv.strs I.ok] at h1
      obtain ⟨u, hu, _⟩ := (mem_strs hvk).1 h1
      refine ⟨q', ⟨u, hu, ?_⟩, rfl⟩
      refine (I.leaf_iff hf (hv.trans hu) ?_).2 hk
      intro h; rw [h] at hk; exact hne hk
  · exact (TNode.ends_nodup hvk).map (fun a b h => List.append_cancel_left h)
  · exact hn.filter _

/-- `has_prefix` tells whether a key starts with the string -/
theorem KeyTrie.hasPrefix {t : Trie} {K : List Word} (I : KeyTrie t K) {w : Word} (hb : '}' ∉ w) :
    ∃ b, t.hasPrefix (.str w) = .ok b ∧ (b = true ↔ w = [] ∨ ∃ k ∈ K, w <+: k) := by
  rcases hasPrefix_spec t I.ok w with ⟨_, b, e, h⟩ | ⟨r, ⟨p, v, e, _⟩, _⟩
  · refine ⟨b, e, h.trans ?_⟩
    constructor
    · rintro ⟨q, b', hq, hp⟩
      rcases I.cover q b' hq with rfl | ⟨k, hk, hqk⟩
      · exact Or.inl (List.prefix_nil.1 hp)
      · exact Or.inr ⟨k, hk, hp.trans hqk⟩
    · rintro (rfl | ⟨k, hk, hp⟩)
      · exact ⟨[], _, (TNode.strs_nil I.ok).2 rfl, List.prefix_refl _⟩
      · exact ⟨k, _, I.keys k hk, hp⟩
  · rw [e] at hb; simp at hb

/-- the string of the parent of a key -/
theorem KeyTrie.parent {t : Trie} {K : List Word} (I : KeyTrie t K) {k : Word} (hk : k ∈ K)
    (hne : k ≠ []) : ∃ p0, t.ancestorsData k = .ok p0 ∧ p0 <+: k ∧
      ∀ x b, (x, b) ∈ t.root.strs → x <+: k → x ≠ k → x <+: p0 := by
  obtain ⟨v, hv, _⟩ := (mem_strs I.ok).1 (I.keys k hk)
  obtain ⟨p0, v0, c, rfl, h0, hc⟩ := hv.snoc I.ok hne
  refine ⟨p0, ancestorsData_spec I.ok h0 hc, ⟨_, rfl⟩, ?_⟩
  intro x b hx hp hxe
  obtain ⟨vx, hvx, _⟩ := (mem_strs I.ok).1 hx
  exact hvx.above I.ok h0 hc hp hxe

end Extra
