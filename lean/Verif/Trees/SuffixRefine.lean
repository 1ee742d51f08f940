import Verif.Trees.SuffixProofs
import Mathlib.Data.List.Infix

/-!
# `SuffixTrie` is the radix trie of its suffixes
-/

set_option linter.unusedSimpArgs false

namespace Extra

/-- the keys of a word -/
def suffixKeys (w : Word) : List Word := (List.range (w.length + 1)).map (suffixKey w)

/-- the part of a key after the suffix -/
theorem suffixKey_eq (w : Word) (i : Nat) :
    suffixKey w i = w.drop i ++ '$' :: (" ⟶ ".toList ++ Nat.toDigits 10 i) := by
  rw [suffixKey, List.append_assoc]
  rfl

theorem suffixKey_ne (w : Word) (i : Nat) : suffixKey w i ≠ [] := by
  rw [suffixKey_eq]; simp

theorem not_brace_key {w : Word} (h : '}' ∉ w) (i : Nat) : '}' ∉ suffixKey w i := by
  rw [suffixKey, List.mem_append, List.mem_append]
  rintro ((h1 | h1) | h1)
  · exact h (List.mem_of_mem_drop h1)
  · revert h1; decide
  · have := Nat.isDigit_of_mem_toDigits (by decide) (by decide) h1
    revert this; decide

/-- the part of a string before the first `$` -/
theorem before_dollar {a b c d : Word} (ha : '$' ∉ a) (hc : '$' ∉ c) (h : a ++ '$' :: b <+: c ++ '$' :: d) :
    a = c := by
  obtain ⟨e, h⟩ := h
  have h1 : (a ++ '$' :: b ++ e).takeWhile (fun x => decide (x ≠ '$')) = a := by
    rw [List.append_assoc, List.takeWhile_append_of_pos]
    · simp
    · intro x hx
      simp only [decide_eq_true_eq]
      rintro rfl
      exact ha hx
  have h2 : (c ++ '$' :: d).takeWhile (fun x => decide (x ≠ '$')) = c := by
    rw [List.takeWhile_append_of_pos]
    · simp
    · intro x hx
      simp only [decide_eq_true_eq]
      rintro rfl
      exact hc hx
  rw [h, h2] at h1
  exact h1.symm

theorem suffixKey_inj {w : Word} (h : '$' ∉ w) {i j : Nat} (hi : i ≤ w.length) (hj : j ≤ w.length)
    (hp : suffixKey w i <+: suffixKey w j) : i = j := by
  rw [suffixKey_eq, suffixKey_eq] at hp
  have := before_dollar (fun h1 => h (List.mem_of_mem_drop h1)) (fun h1 => h (List.mem_of_mem_drop h1)) hp
  have := congrArg List.length this
  rw [List.length_drop, List.length_drop] at this
  omega

theorem mem_suffixKeys {w k : Word} : k ∈ suffixKeys w ↔ ∃ i ≤ w.length, suffixKey w i = k := by
  simp only [suffixKeys, List.mem_map, List.mem_range]
  constructor
  · rintro ⟨i, h, e⟩; exact ⟨i, by omega, e⟩
  · rintro ⟨i, h, e⟩; exact ⟨i, by omega, e⟩

theorem suffixKeys_free {w : Word} (h : '$' ∉ w) : PrefixFree (suffixKeys w) := by
  intro a ha b hb hp
  obtain ⟨i, hi, rfl⟩ := mem_suffixKeys.1 ha
  obtain ⟨j, hj, rfl⟩ := mem_suffixKeys.1 hb
  rw [suffixKey_inj h hi hj hp]

theorem suffixKeys_nodup {w : Word} (h : '$' ∉ w) : (suffixKeys w).Nodup := by
  rw [suffixKeys]
  apply List.Nodup.map_on _ List.nodup_range
  intro i hi j hj e
  rw [List.mem_range] at hi hj
  exact suffixKey_inj h (by omega) (by omega) (by rw [e])

/-- a built suffix trie -/
structure SuffixInv (s : SuffixTrie) : Prop where
  dollar : '$' ∉ s.word
  brace : '}' ∉ s.word
  trie : KeyTrie s.rt (suffixKeys s.word)
  leaves : s.leaves = (List.range (s.word.length + 1)).map (fun i => (i, suffixKey s.word i))
  array : s.array = (List.range s.word.length).map (fun i => (i, s.word.drop i)) ++
    [(s.word.length, ['$'])]

theorem SuffixTrie.add_ok {s : SuffixTrie} {K : List Word} (I : KeyTrie s.rt K) (hb : '}' ∉ s.word)
    (i : Nat) (x : Word) :
    ∃ rt, s.add i x = .ok { s with
        rt := rt, leaves := s.leaves ++ [(i, suffixKey s.word i)], array := s.array ++ [(i, x)] } ∧
      KeyTrie rt (K ++ [suffixKey s.word i]) := by
  obtain ⟨t', e, I'⟩ := I.add (suffixKey_ne s.word i) (not_brace_key hb i)
  refine ⟨_, ?_, I'⟩
  rw [SuffixTrie.add, e]

theorem suffixLoop_ok : ∀ (is : List Nat) {s : SuffixTrie} {K : List Word}, KeyTrie s.rt K →
    '}' ∉ s.word →
    ∃ rt, suffixLoop is s = .ok { s with
        rt := rt
        leaves := s.leaves ++ is.map (fun i => (i, suffixKey s.word i))
        array := s.array ++ is.map (fun i => (i, s.word.drop i)) } ∧
      KeyTrie rt (K ++ is.map (suffixKey s.word))
  | [], s, K, I, _ => ⟨s.rt, by simp [suffixLoop], by simpa using I⟩
  | i :: is, s, K, I, hb => by
    obtain ⟨rt, e, I'⟩ := SuffixTrie.add_ok I hb i (s.word.drop i)
    obtain ⟨rt', e', I''⟩ := suffixLoop_ok is (s := { s with
        rt := rt, leaves := s.leaves ++ [(i, suffixKey s.word i)],
        array := s.array ++ [(i, s.word.drop i)] }) I' hb
    refine ⟨rt', ?_, ?_⟩
    · rw [suffixLoop, e]
      simp only
      rw [e']
      simp
    · simpa using I''

/-- the stored word -/
def storedWord (w : Word) : Word := w.filter (fun c => decide (c ≠ '$'))

theorem suffix_build {u : Word} (hd : '$' ∉ u) (hb : '}' ∉ u) :
    ∃ s t, suffixLoop (List.range u.length) ⟨u, Trie.new, [], []⟩ = .ok s ∧
      s.add u.length ['$'] = .ok t ∧ t.word = u ∧ SuffixInv t := by
  obtain ⟨rt, e, I⟩ := suffixLoop_ok (List.range u.length)
    (s := ⟨u, Trie.new, [], []⟩) KeyTrie.new hb
  obtain ⟨rt', e', I'⟩ := SuffixTrie.add_ok
    (s := ⟨u, rt, [] ++ (List.range u.length).map (fun i => (i, suffixKey u i)),
      [] ++ (List.range u.length).map (fun i => (i, u.drop i))⟩) I hb u.length ['$']
  refine ⟨_, _, e, e', rfl, ⟨hd, hb, ?_, ?_, ?_⟩⟩
  · simp only [suffixKeys]
    rw [List.range_succ, List.map_append]
    simpa using I'
  · simp only [List.nil_append]
    rw [List.range_succ, List.map_append]
    rfl
  · simp

theorem suffix_new {w : Word} (hw : w ≠ []) (hb : '}' ∉ w) :
    ∃ s, SuffixTrie.new (.str w) = .ok s ∧ s.word = storedWord w ∧ SuffixInv s := by
  obtain ⟨c, w', rfl⟩ : ∃ c w', w = c :: w' := by
    cases w with
    | nil => exact absurd rfl hw
    | cons c w' => exact ⟨c, w', rfl⟩
  have hd : '$' ∉ storedWord (c :: w') := by
    intro h
    have := (List.mem_filter.1 h).2
    simp at this
  obtain ⟨s, t, e1, e2, e3, I⟩ :=
    suffix_build hd (fun h => hb (List.mem_of_mem_filter h))
  refine ⟨t, ?_, e3, I⟩
  rw [SuffixTrie.new]
  rw [show (c :: w').filter (fun c => decide (c ≠ '$')) = storedWord (c :: w') from rfl, e1]
  exact e2

/-- whatever is built satisfies the invariant -/
theorem lost_of_first {t : Trie} {r : Word} (h : t.root.kids.child '}' = none) :
    Lost t.root ('}' :: r) r := ⟨[], t.root, rfl, .here _, h⟩

/-- before the first suffix that starts with `}` there is no child for `}` -/
theorem suffixLoop_brace : ∀ (is : List Nat) {s : SuffixTrie}, s.rt.root.kids.Ok →
    s.rt.root.kids.child '}' = none →
    (∃ i ∈ is, (s.word.drop i).head? = some '}') → suffixLoop is s = .error .attributeError
  | [], _, _, _, h => by obtain ⟨i, hi, _⟩ := h; cases hi
  | i :: is, s, ho, hn, h => by
    have hne := suffixKey_ne s.word i
    rw [suffixLoop, SuffixTrie.add]
    by_cases hl : ∃ r, Lost s.rt.root (suffixKey s.word i) r
    · obtain ⟨r, l⟩ := hl
      obtain ⟨r', _, e⟩ := follow_lost ho l
      have : s.rt.radixAdd (suffixKey s.word i) = .error .attributeError := by
        rw [Trie.radixAdd, if_neg hne, e]
        by_cases hr : r' = []
        · simp [hr]
        · simp [hr]
      rw [this]
    · have hhead : (suffixKey s.word i).head? ≠ some '}' := by
        intro hh
        apply hl
        cases hk : suffixKey s.word i with
        | nil => exact absurd hk hne
        | cons a r =>
          rw [hk] at hh
          simp at hh
          subst hh
          exact ⟨r, lost_of_first hn⟩
      obtain ⟨t', e, h1, h2, h3, m, m1, m2, m3, m4⟩ := radixAdd_spec ho hne hl
      obtain ⟨v, hv, _⟩ := (mem_strs h1).1 ((m4 _ true).2 (Or.inl ⟨rfl, rfl⟩))
      obtain ⟨k1, _, k3, k4, k5, k6⟩ := mark_spec false h1 hv
      rw [e]
      simp only
      apply suffixLoop_brace is k1
      · simp only
        cases hc : (t'.mark false (suffixKey s.word i)).root.kids.child '}' with
        | none => rfl
        | some u =>
          exfalso
          obtain ⟨hd, _⟩ := k1.child hc
          have hm : (u.data, u.word) ∈ (t'.mark false (suffixKey s.word i)).root.strs :=
            (mem_strs k1).2 ⟨u, .child hc, rfl⟩
          rw [k6, m4] at hm
          have hpre : ∀ {x : Word}, u.data <+: x → x.head? = some '}' := by
            rintro x ⟨y, rfl⟩
            cases hh : u.data with
            | nil => rw [hh] at hd; cases hd
            | cons a d => rw [hh] at hd; cases hd; rfl
          rcases hm with ⟨h, _⟩ | ⟨hne', ⟨h, _⟩ | ⟨_, h | ⟨_, h, _⟩⟩⟩
          · exact hhead (hpre (by rw [h]))
          · exact hne' h
          · cases hh : u.data with
            | nil => rw [hh] at hd; cases hd
            | cons a d =>
              rw [hh] at hd h
              cases hd
              obtain ⟨u', _, hu', _⟩ := (TNode.strs_cons ho).1 h
              rw [hn] at hu'; cases hu'
          · exact hhead (hpre (by rw [h]; exact m1))
      · obtain ⟨j, hj, hjh⟩ := h
        rcases List.mem_cons.1 hj with rfl | hj
        · exfalso
          apply hhead
          rw [suffixKey_eq]
          cases hh : s.word.drop j with
          | nil => rw [hh] at hjh; cases hjh
          | cons a d => rw [hh] at hjh; cases hjh; rfl
        · exact ⟨j, hj, hjh⟩

theorem suffix_new_brace {w : Word} (hb : '}' ∈ w) :
    SuffixTrie.new (.str w) = .error .attributeError := by
  obtain ⟨c, w', rfl⟩ : ∃ c w', w = c :: w' := by
    cases w with
    | nil => cases hb
    | cons c w' => exact ⟨c, w', rfl⟩
  have hb' : '}' ∈ storedWord (c :: w') := List.mem_filter.2 ⟨hb, by decide⟩
  obtain ⟨i, hi, e⟩ := List.mem_iff_getElem.1 hb'
  have := suffixLoop_brace (List.range (storedWord (c :: w')).length)
    (s := ⟨storedWord (c :: w'), Trie.new, [], []⟩) trivial rfl
    ⟨i, List.mem_range.2 hi, by
      simp only
      rw [List.drop_eq_getElem_cons hi, e]; rfl⟩
  rw [SuffixTrie.new]
  rw [show (c :: w').filter (fun c => decide (c ≠ '$')) = storedWord (c :: w') from rfl, this]

/-- every suffix trie satisfies the invariant, and holds the word it was given -/
theorem suffix_inv {x : StrArg} {s : SuffixTrie} (h : SuffixTrie.new x = .ok s) :
    ∃ w, x = .str w ∧ w ≠ [] ∧ '}' ∉ w ∧ s.word = storedWord w ∧ SuffixInv s := by
  cases x with
  | none => cases h
  | other => cases h
  | str w =>
    by_cases hw : w = []
    · subst hw; cases h
    · by_cases hb : '}' ∈ w
      · rw [suffix_new_brace hb] at h; cases h
      · obtain ⟨s', e, h1, h2⟩ := suffix_new hw hb
        rw [h] at e
        cases e
        exact ⟨w, rfl, hw, hb, h1, h2⟩

/-! ## Patterns -/

/-- a pattern without `$` starts a key iff it starts the suffix -/
theorem prefix_key {w p : Word} (hp : '$' ∉ p) (i : Nat) : p <+: suffixKey w i ↔ p <+: w.drop i := by
  rw [suffixKey_eq]
  constructor
  · intro h
    rcases List.prefix_or_prefix_of_prefix h ⟨_, rfl⟩ with h1 | ⟨y, rfl⟩
    · exact h1
    · cases y with
      | nil => simp
      | cons a y =>
        rw [List.prefix_append_right_inj] at h
        obtain ⟨z, hz⟩ := h
        have := (List.cons.inj hz).1
        subst this
        simp at hp
  · intro h
    exact h.trans ⟨_, rfl⟩

/-- `p` occurs in `w` iff it starts a suffix -/
theorem infix_iff_drop {w p : Word} : p <:+: w ↔ ∃ i ≤ w.length, p <+: w.drop i := by
  constructor
  · rintro ⟨a, b, rfl⟩
    refine ⟨a.length, by simp, b, ?_⟩
    rw [List.append_assoc, List.drop_left]
  · rintro ⟨i, _, b, h⟩
    exact ⟨w.take i, b, by rw [List.append_assoc, h, List.take_append_drop]⟩

theorem SuffixInv.hasSubstring {s : SuffixTrie} (I : SuffixInv s) {p : Word} (h1 : '$' ∉ p)
    (h2 : '}' ∉ p) : ∃ b, s.hasSubstring (.str p) = .ok b ∧ (b = true ↔ p <:+: s.word) := by
  obtain ⟨b, e, h⟩ := I.trie.hasPrefix h2
  refine ⟨b, e, h.trans ?_⟩
  rw [infix_iff_drop]
  constructor
  · rintro (rfl | ⟨k, hk, hp⟩)
    · exact ⟨0, Nat.zero_le _, List.nil_prefix⟩
    · obtain ⟨i, hi, rfl⟩ := mem_suffixKeys.1 hk
      exact ⟨i, hi, (prefix_key h1 i).1 hp⟩
  · rintro ⟨i, hi, hp⟩
    exact Or.inr ⟨_, mem_suffixKeys.2 ⟨i, hi, rfl⟩, (prefix_key h1 i).2 hp⟩

/-- the positions at which `p` occurs -/
def occurrences (w p : Word) : List Nat :=
  (List.range w.length).filter (fun i => decide (p <+: w.drop i))

theorem SuffixInv.nil_key {s : SuffixTrie} (_ : SuffixInv s) : [] ∉ suffixKeys s.word := by
  intro h
  obtain ⟨i, _, e⟩ := mem_suffixKeys.1 h
  exact suffixKey_ne _ _ e

theorem SuffixInv.keys_ne {s : SuffixTrie} (_ : SuffixInv s) : suffixKeys s.word ≠ [] := by
  simp [suffixKeys]

/-- the keys that start with a pattern -/
theorem count_keys {w p : Word} (hp : p ≠ []) (hd : '$' ∉ p) :
    ((suffixKeys w).filter (fun k => decide (p <+: k))).length = (occurrences w p).length := by
  rw [suffixKeys, List.range_succ, List.map_append, List.filter_append, List.length_append]
  have h1 : (List.filter (fun k => decide (p <+: k)) (List.map (suffixKey w) [w.length])) = [] := by
    rw [List.filter_eq_nil_iff]
    intro k hk
    rw [List.map_singleton, List.mem_singleton] at hk
    rw [hk, decide_eq_true_eq, prefix_key hd, List.drop_length]
    intro h
    exact hp (List.prefix_nil.1 h)
  rw [h1, List.length_nil, Nat.add_zero, occurrences, List.filter_map, List.length_map]
  congr 2
  funext i
  simp only [Function.comp, prefix_key hd]

/-- a pattern that is not lost is counted as the number of keys that start with it -/
theorem SuffixInv.countKeys {s : SuffixTrie} (I : SuffixInv s) {p : Word} (hp : p ≠ [])
    (hn : ¬ ∃ r, Lost s.rt.root p r) :
    s.countPattern (.str p) = .ok ((suffixKeys s.word).filter (fun k => decide (p <+: k))).length := by
  have hT := I.trie
  have hfree := suffixKeys_free I.dollar
  have hnd := suffixKeys_nodup I.dollar
  obtain ⟨q, v, r, e, rfl, hr, st⟩ := follow_not_lost hT.ok hn
  have hv := hr.ok hT.ok
  rw [SuffixTrie.countPattern, e]
  cases r with
  | nil =>
    rw [List.append_nil] at hp ⊢
    simp only [if_neg hp]
    rw [hT.count_leaves hfree hnd I.nil_key I.keys_ne hr]
  | cons c r =>
    simp only
    by_cases hin : ∃ u, v.kids.child c = some u ∧ c :: r <+: u.data
    · obtain ⟨u, hu, hpre⟩ := hin
      have hcd : v.childData c = u.data := by simp [TNode.childData, hu]
      rw [hcd, if_pos (List.prefix_iff_eq_take.1 hpre).symm, hu]
      simp only
      rw [hT.count_leaves hfree hnd I.nil_key I.keys_ne (hr.trans (.child hu))]
      congr 2
      apply List.filter_congr
      intro k hk
      rw [decide_eq_decide]
      constructor
      · intro h; exact ((List.prefix_append_right_inj q).2 hpre).trans h
      · rintro ⟨y, rfl⟩
        have h3 := hT.keys _ hk
        rw [List.append_assoc, hr.strs hT.ok, List.cons_append] at h3
        obtain ⟨u', q', hu', e', _⟩ := (TNode.strs_cons hv).1 h3
        rw [hu] at hu'
        cases hu'
        rw [List.append_assoc, List.cons_append, e', List.prefix_append_right_inj]
        exact ⟨q', rfl⟩
    · have hc : ¬ (v.childData c).take (c :: r).length = c :: r := by
        intro h
        apply hin
        cases hc : v.kids.child c with
        | none => simp [TNode.childData, hc] at h
        | some u =>
          simp only [TNode.childData, hc] at h
          exact ⟨u, rfl, by rw [← h]; exact List.take_prefix _ _⟩
      rw [if_neg hc]
      congr 1
      symm
      rw [List.length_eq_zero_iff, List.filter_eq_nil_iff]
      intro k hk
      rw [decide_eq_true_eq]
      rintro ⟨y, rfl⟩
      have h3 := hT.keys _ hk
      rw [List.append_assoc, hr.strs hT.ok] at h3
      exact hin (st.prefix hv h3 ⟨y, rfl⟩)

theorem SuffixInv.countPattern {s : SuffixTrie} (I : SuffixInv s) {p : Word} (hp : p ≠ [])
    (h1 : '$' ∉ p) (h2 : '}' ∉ p) :
    s.countPattern (.str p) = .ok (occurrences s.word p).length := by
  rw [← count_keys hp h1]
  refine I.countKeys hp ?_
  rintro ⟨r, q, v, e, _⟩
  rw [e] at h2
  simp at h2

/-! ## Lowest common ancestors -/

/-- `x` is the longest common prefix of `a` and `b` -/
def IsLcp (x a b : Word) : Prop := x <+: a ∧ x <+: b ∧ ∀ y, y <+: a → y <+: b → y <+: x

theorem isLcp_iff {x a b : Word} : IsLcp x a b ↔ ∃ a' b', a = x ++ a' ∧ b = x ++ b' ∧ Apart a' b' := by
  constructor
  · rintro ⟨⟨a', rfl⟩, ⟨b', rfl⟩, h⟩
    refine ⟨a', b', rfl, rfl, ?_⟩
    rintro c ⟨h1, h2⟩
    have h3 : ∀ {z : Word}, z.head? = some c → x ++ [c] <+: x ++ z := by
      intro z hz
      rw [List.prefix_append_right_inj]
      cases z with
      | nil => cases hz
      | cons a z => cases hz; exact ⟨z, rfl⟩
    have := (h _ (h3 h1) (h3 h2)).length_le
    rw [List.length_append, List.length_singleton] at this
    omega
  · rintro ⟨a', b', rfl, rfl, h⟩
    refine ⟨⟨_, rfl⟩, ⟨_, rfl⟩, ?_⟩
    intro y h1 h2
    rcases List.prefix_or_prefix_of_prefix h1 ⟨_, rfl⟩ with h3 | ⟨z, rfl⟩
    · exact h3
    · cases z with
      | nil => simp
      | cons c z =>
        exfalso
        rw [List.prefix_append_right_inj] at h1 h2
        obtain ⟨u, hu⟩ := h1
        obtain ⟨v, hv⟩ := h2
        rw [← hu, ← hv] at h
        exact h c ⟨rfl, rfl⟩

theorem getLcp_isLcp (a b : Word) : IsLcp (getLcp a b) a b := by
  obtain ⟨x, a', b', h1, h2, h3, h4⟩ := getLcp_spec a b
  rw [h3, isLcp_iff]
  exact ⟨a', b', h1, h2, h4⟩

theorem IsLcp.unique {x y a b : Word} (h : IsLcp x a b) (h' : IsLcp y a b) : x = y :=
  (h'.2.2 x h.1 h.2.1).eq_of_length_le (h.2.2 y h'.1 h'.2.1).length_le

theorem lookup_range (f : Nat → Word) (n i : Nat) (h : i < n) :
    ((List.range n).map (fun i => (i, f i))).lookup i = some (f i) := by
  induction n with
  | zero => omega
  | succ n ih =>
    rw [List.range_succ, List.map_append, List.lookup_append]
    by_cases hi : i < n
    · rw [ih hi]; rfl
    · have : i = n := by omega
      subst this
      have hnone : ((List.range i).map (fun i => (i, f i))).lookup i = none := by
        rw [List.lookup_eq_none_iff]
        intro p hp
        obtain ⟨j, hj, rfl⟩ := List.mem_map.1 hp
        rw [List.mem_range] at hj
        simp
        omega
      rw [hnone]
      simp

/-- two keys go apart after the longest common prefix of their suffixes -/
theorem SuffixInv.branches {s : SuffixTrie} (I : SuffixInv s) {i j : Nat} (hi : i ≤ s.word.length)
    (hj : j ≤ s.word.length) (hij : i ≠ j) : ∃ x a b y z, IsLcp x (s.word.drop i) (s.word.drop j) ∧
      a ≠ b ∧ suffixKey s.word i = x ++ a :: y ∧ suffixKey s.word j = x ++ b :: z := by
  have hl := getLcp_isLcp (s.word.drop i) (s.word.drop j)
  generalize hx : getLcp (s.word.drop i) (s.word.drop j) = x at hl
  suffices h : ∃ a b y z, a ≠ b ∧ suffixKey s.word i = x ++ a :: y ∧
      suffixKey s.word j = x ++ b :: z by
    obtain ⟨a, b, y, z, h⟩ := h
    exact ⟨x, a, b, y, z, hl, h⟩
  obtain ⟨a', b', e1, e2, hap⟩ := isLcp_iff.1 hl
  have hdol : ∀ {k : Nat} {z : Word}, s.word.drop k = x ++ z → z.head? ≠ some '$' := by
    intro k z hz hh
    apply I.dollar
    apply List.mem_of_mem_drop (i := k)
    rw [hz]
    cases z with
    | nil => cases hh
    | cons a z => cases hh; simp
  rw [suffixKey_eq, suffixKey_eq, e1, e2, List.append_assoc, List.append_assoc]
  cases ha : a' with
  | nil =>
    cases hb : b' with
    | nil =>
      exfalso
      rw [ha, ← hb, ← e2] at e1
      have := congrArg List.length e1
      rw [List.length_drop, List.length_drop] at this
      omega
    | cons b b' =>
      refine ⟨'$', b, _, _, ?_, rfl, rfl⟩
      rintro rfl
      exact hdol e2 (by rw [hb]; rfl)
  | cons a a' =>
    cases hb : b' with
    | nil =>
      refine ⟨a, '$', _, _, ?_, rfl, rfl⟩
      rintro rfl
      exact hdol e1 (by rw [ha]; rfl)
    | cons b b' =>
      refine ⟨a, b, _, _, ?_, rfl, rfl⟩
      rintro rfl
      rw [ha, hb] at hap
      exact hap a ⟨rfl, rfl⟩

theorem SuffixInv.lca {s : SuffixTrie} (I : SuffixInv s) {i j : Nat} (hi : i < s.word.length)
    (hj : j ≤ s.word.length) (hij : i ≠ j) :
    ∃ x, s.lca (.int i) (.int j) = .ok x ∧ IsLcp x (s.word.drop i) (s.word.drop j) := by
  have hT := I.trie
  have hki : suffixKey s.word i ∈ suffixKeys s.word := mem_suffixKeys.2 ⟨i, hi.le, rfl⟩
  have hkj : suffixKey s.word j ∈ suffixKeys s.word := mem_suffixKeys.2 ⟨j, hj, rfl⟩
  obtain ⟨pi, ei, ai, bi⟩ := hT.parent hki (suffixKey_ne _ _)
  obtain ⟨pj, ej, aj, bj⟩ := hT.parent hkj (suffixKey_ne _ _)
  have hg := getLcp_isLcp pi pj
  obtain ⟨x, a, b, y, z, hl, hab, k1, k2⟩ := I.branches hi.le hj hij
  have m1 := hT.keys _ hki
  have m2 := hT.keys _ hkj
  have hb1 := bi
  have hb2 := bj
  rw [k1] at m1
  rw [k2] at m2
  obtain ⟨g, hg'⟩ := strs_branch x.length le_rfl hT.ok hab m1 m2
  have x1 : x <+: pi := bi x g hg' (by rw [k1]; exact ⟨_, rfl⟩) (by rw [k1]; simp)
  have x2 : x <+: pj := bj x g hg' (by rw [k2]; exact ⟨_, rfl⟩) (by rw [k2]; simp)
  have hfin : getLcp pi pj = x := by
    have hgx : x <+: getLcp pi pj := hg.2.2 x x1 x2
    have hkl : IsLcp x (suffixKey s.word i) (suffixKey s.word j) := by
      rw [isLcp_iff]
      refine ⟨_, _, k1, k2, ?_⟩
      rintro c ⟨h1, h2⟩
      simp at h1 h2
      exact hab (h1.trans h2.symm)
    have := hkl.2.2 _ (hg.1.trans ai) (hg.2.1.trans aj)
    exact this.eq_of_length_le hgx.length_le
  refine ⟨x, ?_, hl⟩
  rw [SuffixTrie.lca, if_neg (by omega), if_neg (by omega), I.leaves]
  simp only [Int.toNat_natCast]
  rw [lookup_range _ _ _ (by omega), lookup_range _ _ _ (by omega)]
  simp only [ei, ej, hfin]

end Extra
