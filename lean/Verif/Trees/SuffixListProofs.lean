import Verif.Trees.SuffixList
import Verif.Trees.TrieShape

/-!
# Lemmas about the iteration of suffix tries

For C90.
-/

namespace Extra

/-! ## Places of the suffix tree of a word -/

/-- the suffixes of a word, each closed with `$` -/
def closedSuffixes (u : Word) : List Word := u.tails.map (· ++ ['$'])

/-- the places of the suffix tree of `u` below its root: the closed suffixes, and the strings after which
two of them go on with different characters -/
def SufPlace (u p : Word) : Prop :=
  p ∈ closedSuffixes u ∨
    (p ≠ [] ∧ ∃ x ∈ closedSuffixes u, ∃ y ∈ closedSuffixes u, p <+: x ∧ p <+: y ∧
      x[p.length]? ≠ y[p.length]?)

instance (u p : Word) : Decidable (SufPlace u p) := inferInstanceAs (Decidable (_ ∨ _))

/-- the number of places on the way to `p`, with `p` itself -/
def sufDepth (u p : Word) : Nat := (p.inits.filter (fun q => decide (SufPlace u q))).length

theorem mem_closed {u p : Word} : p ∈ closedSuffixes u ↔ ∃ i ≤ u.length, p = u.drop i ++ ['$'] := by
  rw [closedSuffixes, List.mem_map]
  constructor
  · rintro ⟨x, hx, rfl⟩
    rw [List.mem_tails] at hx
    obtain ⟨y, rfl⟩ := hx
    exact ⟨y.length, by simp, by simp⟩
  · rintro ⟨i, _, rfl⟩
    exact ⟨_, List.mem_tails _ _ |>.2 (List.drop_suffix i u), rfl⟩

theorem SufPlace.ne_nil {u p : Word} (h : SufPlace u p) : p ≠ [] := by
  rcases h with h | h
  · obtain ⟨i, _, rfl⟩ := mem_closed.1 h
    simp
  · exact h.1

theorem inits_concat (l : Word) (c : Char) : (l ++ [c]).inits = l.inits ++ [l ++ [c]] := by
  induction l with
  | nil => simp
  | cons a l ih => simp [ih]

/-- a step to the next place adds one to the depth -/
theorem sufDepth_step {u p d : Word} (hd : d ≠ []) (hp : SufPlace u (p ++ d))
    (h : ∀ q, SufPlace u q → q <+: p ++ d → q <+: p ∨ q = p ++ d) :
    sufDepth u (p ++ d) = sufDepth u p + 1 := by
  have key : ∀ e : Word, (∃ r, r ≠ [] ∧ d = e ++ r) → sufDepth u (p ++ e) = sufDepth u p := by
    intro e
    induction e using List.reverseRecOn with
    | nil => simp
    | append_singleton e c ih =>
      rintro ⟨r, hr, he⟩
      rw [← List.append_assoc, sufDepth, inits_concat, List.filter_append, List.length_append]
      have : ¬ SufPlace u (p ++ e ++ [c]) := by
        intro hq
        rcases h _ hq ⟨r, by rw [he]; simp⟩ with k | k
        · have := k.length_le
          simp at this
        · rw [he] at k
          have := congrArg List.length k
          have h0 := List.length_pos_of_ne_nil hr
          simp only [List.length_append] at this
          omega
      rw [List.filter_cons_of_neg (by simpa using this)]
      have := ih ⟨c :: r, by simp, by rw [he]; simp⟩
      rw [sufDepth] at this
      simpa using this
  rcases List.eq_nil_or_concat d with rfl | ⟨e, c, rfl⟩
  · exact absurd rfl hd
  · rw [List.concat_eq_append] at hp h key ⊢
    rw [← List.append_assoc] at hp ⊢
    rw [sufDepth, inits_concat, List.filter_append, List.filter_cons_of_pos (by simpa using hp),
      List.length_append]
    have := key e ⟨[c], by simp, rfl⟩
    rw [sufDepth] at this
    rw [this]; rfl

theorem sufDepth_nil (u : Word) : sufDepth u [] = 0 := by
  have : ¬ SufPlace u [] := fun h => h.ne_nil rfl
  simp [sufDepth, this]

/-! ## Cutting off the index of a leaf -/

/-- everything up to the first `$`, with it -/
def upToDollar : Word → Word
  | [] => []
  | c :: r => if c = '$' then ['$'] else c :: upToDollar r

theorem upToDollar_of {p : Word} (h : '$' ∉ p) : upToDollar p = p := by
  induction p with
  | nil => rfl
  | cons a p ih =>
    rw [List.mem_cons, not_or] at h
    rw [upToDollar, if_neg (fun e => h.1 e.symm), ih h.2]

theorem upToDollar_append {p r : Word} (h : '$' ∉ p) : upToDollar (p ++ r) = p ++ upToDollar r := by
  induction p with
  | nil => rfl
  | cons a p ih =>
    rw [List.mem_cons, not_or] at h
    rw [List.cons_append, upToDollar, if_neg (fun e => h.1 e.symm), ih h.2, List.cons_append]

theorem upToDollar_close {p r : Word} (h : '$' ∉ p) : upToDollar (p ++ '$' :: r) = p ++ ['$'] := by
  rw [upToDollar_append h, upToDollar, if_pos rfl]

theorem upToDollar_prefix (p : Word) : upToDollar p <+: p := by
  induction p with
  | nil => exact List.nil_prefix
  | cons a p ih =>
    rw [upToDollar]
    split
    · rename_i h; rw [h]; exact ⟨p, rfl⟩
    · rw [List.prefix_cons_inj]; exact ih

theorem upToDollar_mono {p q : Word} (h : p <+: q) : upToDollar p <+: upToDollar q := by
  obtain ⟨r, rfl⟩ := h
  by_cases hp : '$' ∈ p
  · obtain ⟨a, b, rfl, ha⟩ := List.eq_append_cons_of_mem hp
    rw [upToDollar_close ha, List.append_assoc, List.cons_append, upToDollar_close ha]
  · rw [upToDollar_append hp, upToDollar_of hp]
    exact ⟨_, rfl⟩

theorem upToDollar_ne {p : Word} (h : p ≠ []) : upToDollar p ≠ [] := by
  cases p with
  | nil => exact absurd rfl h
  | cons a p => rw [upToDollar]; split <;> simp

theorem upToDollar_key {w : Word} (h : '$' ∉ w) (i : Nat) :
    upToDollar (suffixKey w i) = w.drop i ++ ['$'] := by
  rw [suffixKey_eq, upToDollar_close (fun k => h (List.mem_of_mem_drop k))]

theorem dollar_arrow : '$' ∉ arrow := by decide

theorem beforeArrow_of {p : Word} (h : ¬ arrow <:+: p) : beforeArrow p = p := by
  induction p with
  | nil => rfl
  | cons a p ih =>
    rw [List.infix_cons_iff, not_or] at h
    rw [beforeArrow, if_neg (by simpa [List.isPrefixOf_iff_prefix] using h.1), ih h.2]

theorem prefix_before {x p r : Word} (hx : '$' ∉ x) (h : x <+: p ++ '$' :: r) : x <+: p := by
  rcases List.prefix_or_prefix_of_prefix h (List.prefix_append p _) with k | ⟨s, rfl⟩
  · exact k
  · rw [List.prefix_append_right_inj] at h
    cases s with
    | nil => simp
    | cons c s =>
      obtain ⟨t, ht⟩ := h
      rw [List.cons_append, List.cons.injEq] at ht
      rw [ht.1] at hx
      simp at hx

theorem beforeArrow_close {p r : Word} (h : ¬ arrow <:+: p) :
    beforeArrow (p ++ '$' :: (arrow ++ r)) = p ++ ['$'] := by
  induction p with
  | nil =>
    have h1 : ¬ arrow.isPrefixOf ('$' :: (arrow ++ r)) := by simp [arrow, List.isPrefixOf]
    rw [List.nil_append, beforeArrow, if_neg h1]
    have h2 : arrow ++ r = ' ' :: '⟶' :: ' ' :: r := by simp [arrow]
    have h3 : beforeArrow (arrow ++ r) = [] := by
      have : arrow.isPrefixOf (arrow ++ r) := by rw [List.isPrefixOf_iff_prefix]; exact ⟨r, rfl⟩
      rw [h2] at this ⊢
      rw [beforeArrow, if_pos this]
    rw [h3]; rfl
  | cons a p ih =>
    rw [List.infix_cons_iff, not_or] at h
    rw [List.cons_append, beforeArrow, if_neg, ih h.2, List.cons_append]
    rw [List.isPrefixOf_iff_prefix]
    intro k
    rw [← List.cons_append] at k
    exact h.1 (prefix_before dollar_arrow k)

/-! ## The nodes of a suffix trie -/

theorem SuffixInv.node_dollar {s : SuffixTrie} (I : SuffixInv s) {q : Word} {b : Bool}
    (h : (q, b) ∈ s.rt.root.strs) (hq : q ≠ []) :
    (∃ i ≤ s.word.length, q = suffixKey s.word i) ∨ '$' ∉ q := by
  obtain ⟨v, hv, _⟩ := (mem_strs I.trie.ok).1 h
  obtain ⟨n, hd⟩ := hv.depth
  by_cases hk : v.kids = .nil
  · obtain ⟨i, hi, e⟩ := mem_suffixKeys.1 ((I.trie.leaf_iff (suffixKeys_free I.dollar) hv hq).1 hk)
    exact Or.inl ⟨i, hi, e.symm⟩
  · exact Or.inr (I.inner_dollar ⟨v, hd, hk⟩)

theorem next_closed {w q r : Word} {a : Char} {i : Nat} (hq : '$' ∉ q)
    (h : q ++ a :: r <+: suffixKey w i) :
    q <+: w.drop i ++ ['$'] ∧ (w.drop i ++ ['$'])[q.length]? = some a := by
  have h1 : q <+: w.drop i := (prefix_key hq i).1 ((List.prefix_append q _).trans h)
  refine ⟨h1.trans (List.prefix_append _ _), ?_⟩
  obtain ⟨t, ht⟩ := h1
  rw [suffixKey_eq, ← ht, List.append_assoc, List.prefix_append_right_inj] at h
  rw [← ht, List.append_assoc, List.getElem?_append_right le_rfl, Nat.sub_self]
  obtain ⟨z, hz⟩ := h
  cases t with
  | nil =>
    rw [List.nil_append, List.cons_append, List.cons.injEq] at hz
    simp [hz.1]
  | cons c t =>
    rw [List.cons_append, List.cons_append, List.cons.injEq] at hz
    simp [hz.1]

theorem SuffixInv.node_place {s : SuffixTrie} (I : SuffixInv s) {q : Word} {b : Bool}
    (h : (q, b) ∈ s.rt.root.strs) (hq : q ≠ []) : SufPlace s.word (upToDollar q) := by
  rcases I.node_dollar h hq with ⟨i, hi, rfl⟩ | hd
  · rw [upToDollar_key I.dollar]
    exact Or.inl (mem_closed.2 ⟨i, hi, rfl⟩)
  · rw [upToDollar_of hd]
    rcases I.trie.branch q b h hq with hk | ⟨a, c, x, y, e, f, hac, h1, h2⟩
    · obtain ⟨i, hi, rfl⟩ := mem_suffixKeys.1 hk
      exact absurd (by rw [suffixKey_eq]; simp) hd
    · have key : ∀ {z g}, (z, g) ∈ s.rt.root.strs → z ≠ [] →
          ∃ i ≤ s.word.length, z <+: suffixKey s.word i := by
        intro z g hz hne
        rcases I.trie.cover z g hz with h | ⟨k, hk, hzk⟩
        · exact absurd h hne
        · obtain ⟨i, hi, rfl⟩ := mem_suffixKeys.1 hk
          exact ⟨i, hi, hzk⟩
      obtain ⟨i, hi, hzi⟩ := key h1 (by simp)
      obtain ⟨j, hj, hzj⟩ := key h2 (by simp)
      obtain ⟨p1, e1⟩ := next_closed hd hzi
      obtain ⟨p2, e2⟩ := next_closed hd hzj
      refine Or.inr ⟨hq, _, mem_closed.2 ⟨i, hi, rfl⟩, _, mem_closed.2 ⟨j, hj, rfl⟩, p1, p2, ?_⟩
      rw [e1, e2]
      exact fun k => hac (Option.some.inj k)

theorem SuffixInv.place_node {s : SuffixTrie} (I : SuffixInv s) {p : Word} (h : SufPlace s.word p) :
    ∃ q b, (q, b) ∈ s.rt.root.strs ∧ q ≠ [] ∧ upToDollar q = p := by
  have leaf : ∀ i ≤ s.word.length, ∃ q b, (q, b) ∈ s.rt.root.strs ∧ q ≠ [] ∧
      upToDollar q = s.word.drop i ++ ['$'] := fun i hi =>
    ⟨_, _, I.trie.keys _ (mem_suffixKeys.2 ⟨i, hi, rfl⟩), suffixKey_ne _ _, upToDollar_key I.dollar i⟩
  have dol : ∀ (i : Nat), '$' ∉ s.word.drop i := fun i h => I.dollar (List.mem_of_mem_drop h)
  rcases h with h | ⟨hp, x, hx, y, hy, hpx, hpy, hne⟩
  · obtain ⟨i, hi, rfl⟩ := mem_closed.1 h
    exact leaf i hi
  · obtain ⟨i, hi, rfl⟩ := mem_closed.1 hx
    obtain ⟨j, hj, rfl⟩ := mem_closed.1 hy
    obtain ⟨a, ha⟩ := hpx
    obtain ⟨c, hc⟩ := hpy
    cases a with
    | nil => rw [List.append_nil] at ha; rw [ha]; exact leaf i hi
    | cons a x =>
      cases c with
      | nil => rw [List.append_nil] at hc; rw [hc]; exact leaf j hj
      | cons c y =>
        have hac : a ≠ c := by
          rintro rfl
          apply hne
          rw [← ha, ← hc]
          simp
        have hd : '$' ∉ p := by
          intro hm
          have e := congrArg List.dropLast ha
          rw [List.dropLast_concat, List.dropLast_append_cons] at e
          exact dol i (by rw [← e]; exact List.mem_append_left _ hm)
        have m : ∀ k ≤ s.word.length, ∀ z r, p ++ z :: r = s.word.drop k ++ ['$'] →
            ∃ r', (p ++ z :: r', false) ∈ s.rt.root.strs := by
          intro k hk z r e
          refine ⟨r ++ (" ⟶ ".toList ++ Nat.toDigits 10 k), ?_⟩
          have := I.trie.keys _ (mem_suffixKeys.2 ⟨k, hk, rfl⟩)
          rw [suffixKey_eq] at this
          have e' : s.word.drop k ++ '$' :: (" ⟶ ".toList ++ Nat.toDigits 10 k) =
              p ++ z :: (r ++ (" ⟶ ".toList ++ Nat.toDigits 10 k)) := by
            have := congrArg (· ++ (" ⟶ ".toList ++ Nat.toDigits 10 k)) e
            simpa only [List.append_assoc, List.cons_append, List.nil_append] using this.symm
          rwa [e'] at this
        obtain ⟨x', m1⟩ := m i hi a x ha
        obtain ⟨y', m2⟩ := m j hj c y hc
        obtain ⟨g, hg⟩ := strs_branch p.length le_rfl I.trie.ok hac m1 m2
        exact ⟨p, g, hg, hp, upToDollar_of hd⟩

theorem SuffixInv.node_prefix {s : SuffixTrie} (I : SuffixInv s) {q r : Word} {b c : Bool}
    (hq : (q, b) ∈ s.rt.root.strs) (hr : (r, c) ∈ s.rt.root.strs) (hne : q ≠ [])
    (h : upToDollar q <+: upToDollar r) : q <+: r := by
  rcases I.node_dollar hq hne with ⟨i, hi, rfl⟩ | hd
  · rw [upToDollar_key I.dollar] at h
    have hm : '$' ∈ r := (upToDollar_prefix r).subset (h.subset (by simp))
    have hrn : r ≠ [] := by rintro rfl; simp at hm
    rcases I.node_dollar hr hrn with ⟨j, hj, rfl⟩ | hd
    · rw [upToDollar_key I.dollar] at h
      have := before_dollar (fun h => I.dollar (List.mem_of_mem_drop h))
        (fun h => I.dollar (List.mem_of_mem_drop h)) h
      have h3 := congrArg List.length this
      rw [List.length_drop, List.length_drop] at h3
      have : i = j := by omega
      rw [this]
    · exact absurd hm hd
  · rw [upToDollar_of hd] at h
    exact h.trans (upToDollar_prefix r)

/-- the places on the way to a child -/
theorem SuffixInv.place_between {s : SuffixTrie} (I : SuffixInv s) {u v : TNode} {n : Nat} {p : Word}
    {c : Char} (h : NodeDepth s.rt.root n p u) (hc : u.kids.child c = some v) {q : Word}
    (hq : SufPlace s.word q) (hp : q <+: upToDollar (p ++ v.data)) :
    q <+: p ∨ q = upToDollar (p ++ v.data) := by
  obtain ⟨x, b, hx, hne, rfl⟩ := I.place_node hq
  have hm : (p ++ v.data, v.word) ∈ s.rt.root.strs :=
    (mem_strs I.trie.ok).2 ⟨v, (h.child hc).at, rfl⟩
  rcases h.between I.trie.ok hc hx (I.node_prefix hx hm hne hp) with k | k
  · exact Or.inl ((upToDollar_prefix x).trans k)
  · rw [k]; exact Or.inr rfl

theorem SuffixInv.parent_dollar {s : SuffixTrie} (I : SuffixInv s) {u v : TNode} {n : Nat} {p : Word}
    {c : Char} (h : NodeDepth s.rt.root n p u) (hc : u.kids.child c = some v) : '$' ∉ p :=
  I.inner_dollar ⟨u, h, Kids.ne_nil_iff.2 ⟨_, _, hc⟩⟩

theorem SuffixInv.node_depth {s : SuffixTrie} (I : SuffixInv s) {n : Nat} {p : Word} {v : TNode}
    (h : NodeDepth s.rt.root n p v) : sufDepth s.word (upToDollar p) = n := by
  induction h with
  | root => exact sufDepth_nil _
  | @child n p u w c h hc ih =>
    have hd := data_ne ((h.at.ok I.trie.ok).child hc).1
    have hp := I.parent_dollar h hc
    have hm : (p ++ w.data, w.word) ∈ s.rt.root.strs :=
      (mem_strs I.trie.ok).2 ⟨w, (h.child hc).at, rfl⟩
    have hpl := I.node_place hm (by simp [hd])
    have hb := fun q hq hp => I.place_between (q := q) h hc hq hp
    rw [upToDollar_append hp] at hpl hb ⊢
    rw [sufDepth_step (upToDollar_ne hd) hpl hb, ← ih, upToDollar_of hp]

/-- the label of a node without the index -/
theorem SuffixInv.cut_label {s : SuffixTrie} (I : SuffixInv s) (ha : ¬ arrow <:+: s.word) {u v : TNode}
    {n : Nat} {p : Word} {c : Char} (h : NodeDepth s.rt.root n p u) (hc : u.kids.child c = some v) :
    beforeArrow v.data = upToDollar v.data := by
  have hp := I.parent_dollar h hc
  have hd := data_ne ((h.at.ok I.trie.ok).child hc).1
  have hm : (p ++ v.data, v.word) ∈ s.rt.root.strs :=
    (mem_strs I.trie.ok).2 ⟨v, (h.child hc).at, rfl⟩
  have sub : ∀ i, ∀ x : Word, p ++ x <+: s.word.drop i → ¬ arrow <:+: x := by
    intro i x hx k
    exact ha ((k.trans (List.suffix_append p x).isInfix).trans
      (hx.isInfix.trans (List.drop_suffix i s.word).isInfix))
  rcases I.node_dollar hm (by simp [hd]) with ⟨i, _, e⟩ | hn
  · have h1 : p <+: s.word.drop i := (prefix_key hp i).1 ⟨_, e⟩
    obtain ⟨x, hx⟩ := h1
    rw [suffixKey_eq, ← hx, List.append_assoc, List.append_cancel_left_eq] at e
    have hxd : '$' ∉ x := fun k => I.dollar
      (List.mem_of_mem_drop (i := i) (by rw [← hx]; exact List.mem_append_right _ k))
    rw [e, upToDollar_close hxd]
    exact beforeArrow_close (sub i x (by rw [hx]))
  · rcases I.trie.cover _ _ hm with h0 | ⟨k, hk, hpk⟩
    · simp [hd] at h0
    · obtain ⟨i, _, rfl⟩ := mem_suffixKeys.1 hk
      rw [beforeArrow_of (sub i _ ((prefix_key hn i).1 hpk)), upToDollar_of
        (fun k => hn (List.mem_append_right _ k))]

/-- the rows of `to_list` -/
theorem SuffixInv.rows {s : SuffixTrie} (I : SuffixInv s) (ha : ¬ arrow <:+: s.word) :
    ∃ rows : List (List Word), s.toList = .ok rows.flatten ∧ rows.length = s.height ∧
    ∀ i row, rows[i]? = some row → ∃ ps : List Word, ps.Nodup ∧
      (∀ p, p ∈ ps ↔ SufPlace s.word p ∧ sufDepth s.word p = i + 1) ∧
      List.Forall₂ (fun p d => d ≠ [] ∧ ∃ q, (q = [] ∨ SufPlace s.word q) ∧ p = q ++ d ∧
        ∀ q', SufPlace s.word q' → q' <+: p → q' ≠ p → q' <+: q) ps row := by
  obtain ⟨_, h2⟩ := Trie.rows_spec I.trie.count
  refine ⟨((List.range' 1 s.rt.height).map s.rt.root.row).map (·.map beforeArrow), ?_, ?_, ?_⟩
  · rw [SuffixTrie.toList, h2]
    simp only [List.map_flatten]
  · simp [SuffixTrie.height]
  intro i row hr
  rw [List.getElem?_map, Option.map_eq_some_iff] at hr
  obtain ⟨row', hr, rfl⟩ := hr
  rw [List.getElem?_map, Option.map_eq_some_iff] at hr
  obtain ⟨j, hj, rfl⟩ := hr
  have hlt : i < s.rt.height := by
    have := (List.getElem?_eq_some_iff.1 hj).1
    simpa using this
  rw [List.getElem?_range' hlt] at hj
  cases hj
  obtain ⟨ps, hn, hm, hf⟩ := TNode.row_spec I.trie.ok (1 + 1 * i)
  have node : ∀ {n p v}, NodeDepth s.rt.root n p v → (p, v.word) ∈ s.rt.root.strs := fun hd =>
    (mem_strs I.trie.ok).2 ⟨_, hd.at, rfl⟩
  have nonnil : ∀ {n p v}, NodeDepth s.rt.root (n + 1) p v → p ≠ [] := by
    intro n p v hd
    cases hd with
    | child h hc => simp [data_ne ((h.at.ok I.trie.ok).child hc).1]
  refine ⟨ps.map upToDollar, ?_, ?_, ?_⟩
  · apply hn.map_on
    intro p hp q hq e
    obtain ⟨v, hv⟩ := (hm p).1 hp
    obtain ⟨w, hw⟩ := (hm q).1 hq
    rw [Nat.add_comm] at hv hw
    exact (I.node_prefix (node hv) (node hw) (nonnil hv) (by rw [e])).eq_of_length_le
      (I.node_prefix (node hw) (node hv) (nonnil hw) (by rw [e])).length_le
  · intro p
    rw [List.mem_map]
    constructor
    · rintro ⟨q, hq, rfl⟩
      obtain ⟨v, hv⟩ := (hm q).1 hq
      rw [Nat.add_comm] at hv
      exact ⟨I.node_place (node hv) (nonnil hv), by rw [I.node_depth hv]; omega⟩
    · rintro ⟨hp, hl⟩
      obtain ⟨q, b, hq, _, rfl⟩ := I.place_node hp
      obtain ⟨v, hv, _⟩ := (mem_strs I.trie.ok).1 hq
      obtain ⟨n, hd⟩ := hv.depth
      rw [I.node_depth hd] at hl
      refine ⟨q, (hm q).2 ⟨v, ?_⟩, rfl⟩
      have : 1 + 1 * i = n := by omega
      rw [this]; exact hd
  · rw [List.forall₂_map_left_iff, List.forall₂_map_right_iff]
    refine hf.imp ?_
    rintro p d ⟨v, hd, rfl⟩
    generalize 1 + 1 * i = m, (by omega : 1 + 1 * i ≠ 0) = hm' at hd
    cases hd with
    | root => exact absurd rfl hm'
    | child h hc =>
      rename_i n q u c
      have hd := data_ne ((h.at.ok I.trie.ok).child hc).1
      have hq := I.parent_dollar h hc
      rw [I.cut_label ha h hc]
      refine ⟨upToDollar_ne hd, q, ?_, upToDollar_append hq, ?_⟩
      · by_cases h0 : q = []
        · exact Or.inl h0
        · have := I.node_place (node h) h0
          rw [upToDollar_of hq] at this
          exact Or.inr this
      · intro q' hq' hp hne
        exact (I.place_between h hc hq' hp).resolve_right hne

/-- the inner nodes, said with the places of the suffix tree -/
theorem SuffixInv.inner_iff {s : SuffixTrie} (I : SuffixInv s) {n : Nat} {p : Word} :
    InnerAt s.rt.root n p ↔
      (p = [] ∨ (SufPlace s.word p ∧ '$' ∉ p)) ∧ sufDepth s.word p = n := by
  constructor
  · intro h
    have hd := I.inner_dollar h
    obtain ⟨v, hv, hk⟩ := h
    have hn := I.node_depth hv
    rw [upToDollar_of hd] at hn
    refine ⟨?_, hn⟩
    by_cases hp : p = []
    · exact Or.inl hp
    · have := I.node_place ((mem_strs I.trie.ok).2 ⟨v, hv.at, rfl⟩) hp
      rw [upToDollar_of hd] at this
      exact Or.inr ⟨this, hd⟩
  · rintro ⟨rfl | ⟨hp, hd⟩, rfl⟩
    · rw [sufDepth_nil]
      exact ⟨_, .root, I.root_kids⟩
    · obtain ⟨q, b, hq, hne, rfl⟩ := I.place_node hp
      rcases I.node_dollar hq hne with ⟨i, hi, rfl⟩ | hq'
      · rw [upToDollar_key I.dollar] at hd
        simp at hd
      · obtain ⟨v, hv, _⟩ := (mem_strs I.trie.ok).1 hq
        obtain ⟨n, hd'⟩ := hv.depth
        rw [I.node_depth hd', upToDollar_of hq']
        refine ⟨v, hd', fun hk => ?_⟩
        obtain ⟨i, hi, e⟩ := mem_suffixKeys.1
          ((I.trie.leaf_iff (suffixKeys_free I.dollar) hv hne).1 hk)
        rw [← e, suffixKey_eq] at hq'
        simp at hq'

/-- some place is as deep as the trie is high -/
theorem SuffixInv.deepest {s : SuffixTrie} (I : SuffixInv s) :
    ∃ p, SufPlace s.word p ∧ sufDepth s.word p = s.height := by
  rw [I.height]
  obtain ⟨q, v, hd⟩ := (depth_iff I.trie.ok s.rt.root.rose.height).2 le_rfl
  refine ⟨_, ?_, I.node_depth hd⟩
  refine I.node_place ((mem_strs I.trie.ok).2 ⟨v, hd.at, rfl⟩) ?_
  rintro rfl
  obtain ⟨c, u, hc⟩ := Kids.ne_nil_iff.1 I.root_kids
  have h1 := (depth_iff I.trie.ok 1).1 ⟨_, u, NodeDepth.root.child hc⟩
  have h0 := I.node_depth hd
  rw [show upToDollar [] = [] from rfl, sufDepth_nil] at h0
  omega

end Extra
