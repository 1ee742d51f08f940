import Verif.Trees.RadixProofs
import Verif.Trees.RadixSpec

/-!
# `RadixTrie` follows its specification
-/

set_option linter.unusedSimpArgs false

namespace Extra

/-- the radix trie holds the words of `s` and has the nodes of `s` -/
structure RadixInv (t : Trie) (s : RadixState) : Prop where
  ok : t.root.kids.Ok
  words : ∀ q, (q, true) ∈ t.root.strs ↔ q ∈ s.words
  nodes : ∀ q, (∃ b, (q, b) ∈ t.root.strs) ↔ q ∈ s.nodes
  cover : ∀ q ∈ s.nodes, reaches s.words q = true
  wnodup : s.words.Nodup
  nnodup : s.nodes.Nodup
  count : t.count = t.root.size
  nil : [] ∉ s.words
  data : t.root.data = "ROOT".toList

theorem RadixInv.new : RadixInv Trie.new ⟨[], [[]]⟩ := by
  refine ⟨trivial, ?_, ?_, ?_, List.nodup_nil, by simp, rfl, by simp, rfl⟩
  · intro q; simp [Trie.new, TNode.strs, Kids.strs]
  · intro q; simp [Trie.new, TNode.strs, Kids.strs]
  · intro q hq; simp at hq; subst hq; rfl

theorem RadixInv.rootWord {t : Trie} {s : RadixState} (I : RadixInv t s) : t.root.word = false := by
  cases h : t.root.word with
  | false => rfl
  | true =>
    have := (I.words []).1 ((TNode.strs_nil I.ok).2 h.symm)
    exact absurd this I.nil

theorem RadixInv.root {t : Trie} {s : RadixState} (I : RadixInv t s) : [] ∈ s.nodes :=
  (I.nodes []).1 ⟨_, (TNode.strs_nil I.ok).2 rfl⟩

theorem RadixInv.word_node {t : Trie} {s : RadixState} (I : RadixInv t s) {q : Word}
    (h : q ∈ s.words) : q ∈ s.nodes := (I.nodes q).1 ⟨true, (I.words q).2 h⟩

theorem RadixInv.size {t : Trie} {s : RadixState} (I : RadixInv t s) :
    t.root.size = s.nodes.length := by
  have hn := TNode.nodup I.ok
  have : (t.root.strs.map Prod.fst).Perm s.nodes := by
    rw [List.perm_ext_iff_of_nodup hn I.nnodup]
    intro q
    rw [← I.nodes]
    simp
  have := this.length_eq
  rw [List.length_map] at this
  exact this

theorem readable_iff {N : List Word} {p : Word} : readable N p = true ↔ ∃ q ∈ N, p <+: q := by
  simp [readable]

theorem RadixInv.reads {t : Trie} {s : RadixState} (I : RadixInv t s) {p : Word} :
    Readable t.root p ↔ readable s.nodes p = true := by
  rw [readable_iff]
  constructor
  · rintro ⟨q, b, hq, hp⟩; exact ⟨q, (I.nodes q).1 ⟨b, hq⟩, hp⟩
  · rintro ⟨q, hq, hp⟩
    obtain ⟨b, hb⟩ := (I.nodes q).2 hq
    exact ⟨q, b, hb, hp⟩

theorem RadixInv.reach {t : Trie} {s : RadixState} (I : RadixInv t s) {p : Word} :
    readable s.nodes p = true ↔ reaches s.words p = true := by
  rw [readable_iff]
  constructor
  · rintro ⟨q, hq, hp⟩; exact reaches_prefix (I.cover q hq) hp
  · intro h
    rcases reaches_iff.1 h with rfl | ⟨w, hw, hp⟩
    · exact ⟨[], I.root, List.prefix_refl _⟩
    · exact ⟨w, I.word_node hw, hp⟩

theorem RadixInv.lost {t : Trie} {s : RadixState} (I : RadixInv t s) {w r : Word} :
    Lost t.root w r ↔ ∃ p, w = p ++ '}' :: r ∧ p ∈ s.nodes ∧ ¬ readable s.nodes (p ++ ['}']) = true := by
  constructor
  · rintro ⟨p, v, rfl, hr, hc⟩
    refine ⟨p, rfl, (I.nodes p).1 ⟨v.word, (mem_strs I.ok).2 ⟨v, hr, rfl⟩⟩, ?_⟩
    rw [← I.reads]
    rintro ⟨q, b, hb, z, rfl⟩
    rw [List.append_assoc, hr.strs I.ok] at hb
    obtain ⟨u, q, hu, _⟩ := (TNode.strs_cons (hr.ok I.ok)).1 hb
    rw [hc] at hu; cases hu
  · rintro ⟨p, rfl, h1, h2⟩
    obtain ⟨b, hb⟩ := (I.nodes p).2 h1
    obtain ⟨v, hr, _⟩ := (mem_strs I.ok).1 hb
    refine ⟨p, v, rfl, hr, ?_⟩
    cases hc : v.kids.child '}' with
    | none => rfl
    | some u =>
      exfalso
      apply h2
      rw [← I.reads]
      refine ⟨p ++ u.data, u.word, (mem_strs I.ok).2 ⟨u, hr.trans (.child hc), rfl⟩, ?_⟩
      rw [List.prefix_append_right_inj]
      obtain ⟨hd, _⟩ := (hr.ok I.ok).child hc
      cases hh : u.data with
      | nil => rw [hh] at hd; cases hd
      | cons a d => rw [hh] at hd; cases hd; exact ⟨d, rfl⟩

theorem strayAt_iff {N : List Word} {w : Word} {i : Nat} : strayAt N w i = true ↔
    ∃ p r, w = p ++ '}' :: r ∧ p.length = i ∧ p ∈ N ∧ ¬ readable N (p ++ ['}']) = true := by
  simp only [strayAt, Bool.and_eq_true, decide_eq_true_eq, Bool.not_eq_true', Bool.not_eq_true]
  constructor
  · rintro ⟨⟨h1, h2⟩, h3⟩
    obtain ⟨hi, h1⟩ := List.getElem?_eq_some_iff.1 h1
    have hd : w.drop i = '}' :: w.drop (i + 1) := by
      rw [List.drop_eq_getElem_cons hi, h1]
    refine ⟨w.take i, w.drop (i + 1), ?_, by simp; omega, h2, ?_⟩
    · rw [← hd, List.take_append_drop]
    · rw [List.take_add_one, List.getElem?_eq_getElem hi, h1] at h3
      exact h3
  · rintro ⟨p, r, rfl, rfl, h1, h2⟩
    refine ⟨⟨by simp, by simpa using h1⟩, ?_⟩
    have : (p ++ '}' :: r).take (p.length + 1) = p ++ ['}'] := by
      rw [List.take_append, List.take_of_length_le (by omega)]; simp
    rw [this]
    simpa using h2

theorem strayIn_iff {N : List Word} {w : Word} : strayIn N w = true ↔
    ∃ r p, w = p ++ '}' :: r ∧ p ∈ N ∧ ¬ readable N (p ++ ['}']) = true := by
  simp only [strayIn, List.any_eq_true, List.mem_range, strayAt_iff]
  constructor
  · rintro ⟨i, _, p, r, h1, _, h2, h3⟩; exact ⟨r, p, h1, h2, h3⟩
  · rintro ⟨r, p, rfl, h2, h3⟩; exact ⟨p.length, by simp, p, r, rfl, rfl, h2, h3⟩

theorem strayLast_iff {N : List Word} {w : Word} : strayLast N w = true ↔
    ∃ p, w = p ++ ['}'] ∧ p ∈ N ∧ ¬ readable N (p ++ ['}']) = true := by
  simp only [strayLast, List.any_eq_true, List.mem_range, Bool.and_eq_true, strayAt_iff,
    decide_eq_true_eq]
  constructor
  · rintro ⟨i, _, ⟨p, r, rfl, rfl, h2, h3⟩, hl⟩
    have : r = [] := List.eq_nil_of_length_eq_zero (by
      rw [List.length_append, List.length_cons] at hl; omega)
    subst this
    exact ⟨p, rfl, h2, h3⟩
  · rintro ⟨p, rfl, h2, h3⟩; exact ⟨p.length, by simp, ⟨p, [], rfl, rfl, h2, h3⟩, by simp⟩

theorem RadixInv.stray {t : Trie} {s : RadixState} (I : RadixInv t s) {w : Word} :
    strayIn s.nodes w = true ↔ ∃ r, Lost t.root w r := by
  rw [strayIn_iff]
  simp only [I.lost]

theorem RadixInv.strayLast {t : Trie} {s : RadixState} (I : RadixInv t s) {w : Word} :
    strayLast s.nodes w = true ↔ Lost t.root w [] := by
  rw [strayLast_iff, I.lost]

/-! ## Calls -/

theorem RadixInv.contains {t : Trie} {s : RadixState} (I : RadixInv t s) (w : Word) :
    t.contains (.str w) =
      if strayIn s.nodes w then .error .attributeError else .ok (decide (w ∈ s.words)) := by
  rcases trieContains_spec t I.ok w with ⟨h1, h2⟩ | ⟨h1, h2⟩
  · rw [if_pos (I.stray.2 h1), h2]
  · rw [if_neg (fun h => h1 (I.stray.1 h)), h2]
    simp only [I.words]

theorem RadixInv.hasPrefix {t : Trie} {s : RadixState} (I : RadixInv t s) (w : Word) :
    t.hasPrefix (.str w) =
      if Extra.strayLast s.nodes w then .ok true
      else if strayIn s.nodes w then .error .attributeError else .ok (Extra.reaches s.words w) := by
  rcases hasPrefix_spec t I.ok w with ⟨h1, b, h2, h3⟩ | ⟨r, l, h2⟩
  · rw [if_neg (fun h => h1 ⟨[], I.strayLast.1 h⟩), if_neg (fun h => h1 (I.stray.1 h)), h2]
    congr 1
    rw [Bool.eq_iff_iff, h3, ← I.reach, ← I.reads, Readable]
  · rw [h2]
    by_cases hr : r = []
    · subst hr
      rw [if_pos rfl, if_pos (I.strayLast.2 l)]
    · rw [if_neg hr, if_neg (fun h => hr (l.unique I.ok (I.strayLast.1 h))), if_pos (I.stray.2 ⟨r, l⟩)]

theorem mem_addNew {S : List Word} {w q : Word} : q ∈ addNew S w ↔ q = w ∨ q ∈ S := by
  unfold addNew
  by_cases hin : w ∈ S
  · rw [if_pos hin]
    exact ⟨Or.inr, fun h => h.elim (fun h => h ▸ hin) id⟩
  · rw [if_neg hin, List.mem_append, List.mem_singleton, or_comm]

theorem nodup_addNew {S : List Word} (h : S.Nodup) (w : Word) : (addNew S w).Nodup := by
  unfold addNew
  by_cases hin : w ∈ S
  · rw [if_pos hin]; exact h
  · rw [if_neg hin, List.nodup_append]
    refine ⟨h, by simp, ?_⟩
    intro a ha b hb
    rw [List.mem_singleton] at hb
    rintro rfl
    exact hin (hb ▸ ha)

theorem longestRead_spec {N : List Word} (h : [] ∈ N) (w : Word) : ∀ k : Nat,
    longestRead N w k <+: w ∧ readable N (longestRead N w k) = true ∧
      ∀ y, y <+: w → y.length ≤ k → readable N y = true → y <+: longestRead N w k
  | 0 => by
    refine ⟨List.nil_prefix, readable_iff.2 ⟨[], h, List.prefix_refl _⟩, ?_⟩
    intro y _ hl _
    have : y = [] := List.eq_nil_of_length_eq_zero (by omega)
    subst this
    exact List.nil_prefix
  | k + 1 => by
    rw [longestRead]
    by_cases hr : readable N (w.take (k + 1)) = true
    · rw [if_pos hr]
      refine ⟨List.take_prefix _ _, hr, ?_⟩
      intro y hy hl _
      apply List.prefix_of_prefix_length_le hy (List.take_prefix _ _)
      have := hy.length_le
      rw [List.length_take]
      omega
    · rw [if_neg hr]
      obtain ⟨h1, h2, h3⟩ := longestRead_spec h w k
      refine ⟨h1, h2, ?_⟩
      intro y hy hl hyr
      by_cases hl' : y.length ≤ k
      · exact h3 y hy hl' hyr
      · exfalso
        apply hr
        have : y = w.take y.length := List.prefix_iff_eq_take.1 hy
        have hk : y.length = k + 1 := by omega
        rw [hk] at this
        rw [← this]
        exact hyr

theorem RadixInv.insert {t : Trie} {s : RadixState} (I : RadixInv t s) {w : Word}
    (hw : blank w = false) :
    (strayIn s.nodes w = true ∧ t.radixInsert (.str w) = .error .attributeError) ∨
    (strayIn s.nodes w = false ∧ ∃ t', t.radixInsert (.str w) = .ok t' ∧
      RadixInv t'
        ⟨addNew s.words w, addNew (addNew s.nodes (longestRead s.nodes w w.length)) w⟩) := by
  have hne : w ≠ [] := by rintro rfl; rw [blank_nil] at hw; cases hw
  have hval : validWord false (.str w) = .ok w := by simp [validWord, hw]
  by_cases hb : strayIn s.nodes w = true
  · left
    refine ⟨hb, ?_⟩
    obtain ⟨r, l⟩ := I.stray.1 hb
    obtain ⟨r', _, e⟩ := follow_lost I.ok l
    simp only [Trie.radixInsert, hval, Trie.radixAdd, if_neg hne, e]
    by_cases hr : r' = []
    · simp [hr]
    · simp [hr]
  · right
    refine ⟨by simpa using hb, ?_⟩
    obtain ⟨t', e, h1, h2, h3, m, m1, m2, m3, m4⟩ := radixAdd_spec I.ok hne (fun h => hb (I.stray.2 h))
    have hm : longestRead s.nodes w w.length = m := by
      obtain ⟨l1, l2, l3⟩ := longestRead_spec I.root w w.length
      exact (m3 _ l1 (I.reads.2 l2)).eq_of_length_le
        (l3 m m1 m1.length_le (I.reads.1 m2)).length_le
    rw [hm]
    have hread : Extra.reaches s.words m = true := I.reach.1 (I.reads.1 m2)
    refine ⟨t', by simp only [Trie.radixInsert, hval, e], h1, ?_, ?_, ?_, nodup_addNew I.wnodup _,
      nodup_addNew (nodup_addNew I.nnodup _) _, ?_, ?_, by rw [h3]; exact I.data⟩
    · intro q
      rw [m4, mem_addNew, ← I.words]
      by_cases hq : q = w
      · simp [hq]
      · simp [hq]
    · intro q
      rw [mem_addNew, mem_addNew, ← I.nodes]
      simp only [m4]
      by_cases hq : q = w
      · simp [hq]
      · simp only [hq, false_and, ne_eq, not_false_eq_true, true_and, false_or]
        constructor
        · rintro ⟨b, h | ⟨_, h, _⟩⟩
          · exact Or.inr ⟨b, h⟩
          · exact Or.inl h
        · intro h
          by_cases hex : ∃ b, (q, b) ∈ t.root.strs
          · obtain ⟨b, hb⟩ := hex
            exact ⟨b, Or.inl hb⟩
          · rcases h with rfl | h
            · exact ⟨false, Or.inr ⟨rfl, rfl, fun b' hb' => hex ⟨b', hb'⟩⟩⟩
            · exact absurd h hex
    · intro q hq
      simp only [mem_addNew] at hq
      rw [reaches_iff]
      simp only [mem_addNew]
      rcases hq with rfl | rfl | hq
      · exact Or.inr ⟨_, Or.inl rfl, List.prefix_refl _⟩
      · exact Or.inr ⟨w, Or.inl rfl, m1⟩
      · rcases reaches_iff.1 (I.cover q hq) with h | ⟨x, hx, hp⟩
        · exact Or.inl h
        · exact Or.inr ⟨x, Or.inr hx, hp⟩
    · have := I.count
      omega
    · simp only [mem_addNew]
      rintro (h | h)
      · exact hne h.symm
      · exact I.nil h

/-- nothing changes when the same words stay -/
theorem RadixInv.refilter {t : Trie} {s : RadixState} (I : RadixInv t s) {S : List Word}
    (h : S = s.words) : RadixInv t ⟨S, s.nodes.filter (Extra.reaches S)⟩ := by
  subst h
  have : s.nodes.filter (Extra.reaches s.words) = s.nodes :=
    List.filter_eq_self.2 (fun q hq => I.cover q hq)
  rw [this]
  exact I

theorem RadixInv.remove {t : Trie} {s : RadixState} (I : RadixInv t s) (w : Word) :
    (strayIn s.nodes w = true ∧ t.remove (.str w) = (.error .attributeError, t)) ∨
    (strayIn s.nodes w = false ∧ ∃ t', t.remove (.str w) =
        (if s.words = [w] then .error .attributeError else .ok false, t') ∧
      RadixInv t' ⟨s.words.erase w, s.nodes.filter (Extra.reaches (s.words.erase w))⟩) := by
  cases w with
  | nil =>
    right
    refine ⟨rfl, t, ?_, I.refilter (List.erase_of_not_mem I.nil)⟩
    rw [if_neg (by intro h; exact I.nil (by rw [h]; simp))]
    rfl
  | cons c w =>
    by_cases hb : strayIn s.nodes (c :: w) = true
    · left
      refine ⟨hb, ?_⟩
      obtain ⟨r, l⟩ := I.stray.1 hb
      obtain ⟨r', _, e⟩ := follow_lost I.ok l
      simp only [Trie.remove, e]
      by_cases hr : r' = []
      · simp [hr]
      · simp [hr]
    · right
      have hb' : strayIn s.nodes (c :: w) = false := by simpa using hb
      refine ⟨hb', ?_⟩
      obtain ⟨p, v, r, e, e', hr, st⟩ := follow_not_lost I.ok (fun h => hb (I.stray.2 h))
      cases r with
      | cons a r =>
        have hnot : c :: w ∉ s.words := by
          rw [← I.words, e', hr.strs I.ok]
          intro hh
          cases st.mem (hr.ok I.ok) hh
        refine ⟨t, ?_, I.refilter (List.erase_of_not_mem hnot)⟩
        rw [if_neg (by intro h; exact hnot (by rw [h]; simp))]
        simp only [Trie.remove, e]
      | nil =>
        rw [List.append_nil] at e'
        subst e'
        obtain ⟨m1, m2, m3, m4, m5, m6⟩ := mark_spec false I.ok hr
        have hwords : ∀ q, (q, true) ∈ (t.mark false (c :: w)).root.strs ↔
            q ≠ c :: w ∧ q ∈ s.words := by
          intro q
          rw [m6, I.words]
          simp
        have hflag : (t.mark false (c :: w)).root.word = false := by
          have := (TNode.strs_nil m1 (b := t.root.word)).1 (m6.2 (Or.inr
            ⟨by simp, (TNode.strs_nil I.ok).2 rfl⟩))
          rw [← this]; exact I.rootWord
        have hex : ∀ q, (∃ b, (q, b) ∈ (t.mark false (c :: w)).root.strs) ↔ q ∈ s.nodes := by
          intro q
          rw [← I.nodes]
          simp only [m6]
          constructor
          · rintro ⟨b, ⟨rfl, _⟩ | ⟨_, h⟩⟩
            · exact ⟨v.word, (mem_strs I.ok).2 ⟨v, hr, rfl⟩⟩
            · exact ⟨b, h⟩
          · rintro ⟨b, h⟩
            by_cases hq : q = c :: w
            · exact ⟨false, Or.inl ⟨hq, rfl⟩⟩
            · exact ⟨b, Or.inr ⟨hq, h⟩⟩
        obtain ⟨res, t', e2, c1, c2, c3, c4, c5, c6⟩ := climb_spec ((c :: w).length + 1)
          (t.mark false (c :: w)) (c :: w) _ (Nat.lt_succ_self _) m1 (by rw [m5, I.data]; decide) hflag m2
          (by
            intro q b hq hne
            rcases reaches_iff.1 (I.cover q ((hex q).1 ⟨b, hq⟩)) with h | ⟨x, hx, hp⟩
            · exact absurd h hne
            · by_cases hxw : x = c :: w
              · exact Or.inr (hxw ▸ hp)
              · exact Or.inl ⟨x, (hwords x).2 ⟨hxw, hx⟩, hp⟩)
        have hmem : ∀ q, q ∈ s.words.erase (c :: w) ↔ q ≠ c :: w ∧ q ∈ s.words :=
          fun q => I.wnodup.mem_erase_iff
        refine ⟨t', ?_, c1, ?_, ?_, ?_, I.wnodup.erase _, I.nnodup.filter _, ?_, ?_,
          by rw [c2, m5]; exact I.data⟩
        · have hres : res = if s.words = [c :: w] then .error .attributeError else .ok () := by
            by_cases hS : s.words = [c :: w]
            · rw [if_pos hS]
              exact c6 (by
                rintro ⟨x, hx⟩
                obtain ⟨h1, h2⟩ := (hwords x).1 hx
                rw [hS] at h2
                exact h1 (by simpa using h2))
            · rw [if_neg hS]
              apply c5
              by_contra hno
              have hall : ∀ x ∈ s.words, x = c :: w := by
                intro x hx
                by_contra hxw
                exact hno ⟨x, (hwords x).2 ⟨hxw, hx⟩⟩
              have hmemw := I.cover _ ((I.nodes _).1 ⟨_, (mem_strs I.ok).2 ⟨v, hr, rfl⟩⟩)
              rcases reaches_iff.1 hmemw with h | ⟨x, hx, _⟩
              · cases h
              · have hxw := hall x hx
                subst hxw
                apply hS
                have hn := I.wnodup
                cases hs : s.words with
                | nil => rw [hs] at hx; cases hx
                | cons a l =>
                  rw [hs] at hall hn
                  have ha := hall a List.mem_cons_self
                  subst ha
                  cases l with
                  | nil => rfl
                  | cons b l =>
                    have hb := hall b (by simp)
                    subst hb
                    simp at hn
          subst hres
          simp only [Trie.remove, e, e2]
          by_cases hS : s.words = [c :: w]
          · simp [hS]
          · simp [hS]
        · intro q
          rw [c3, hwords, hmem]
          constructor
          · exact fun h => h.1
          · exact fun h => ⟨h, Or.inr ⟨q, (hwords q).2 h, List.prefix_refl _⟩⟩
        · intro q
          rw [List.mem_filter, reaches_iff, ← hex]
          simp only [c3]
          constructor
          · rintro ⟨b, hb, h⟩
            refine ⟨⟨b, hb⟩, h.imp id ?_⟩
            rintro ⟨x, hx, hp⟩
            exact ⟨x, (hmem x).2 ((hwords x).1 hx), hp⟩
          · rintro ⟨⟨b, hb⟩, h⟩
            refine ⟨b, hb, h.imp id ?_⟩
            rintro ⟨x, hx, hp⟩
            exact ⟨x, (hwords x).2 ((hmem x).1 hx), hp⟩
        · intro q hq
          exact (List.mem_filter.1 hq).2
        · have := I.count
          omega
        · intro h
          exact I.nil ((hmem _).1 h).2

theorem RadixInv.empty {t : Trie} {s : RadixState} (I : RadixInv t s) :
    t.isEmpty = decide (s.words = []) := by
  rw [Trie.isEmpty, I.count, I.size, Bool.eq_iff_iff]
  simp only [decide_eq_true_eq]
  have hlen : ((s.nodes.length : Int) = 1) ↔ s.nodes.length = 1 := by omega
  rw [hlen]
  constructor
  · intro h
    obtain ⟨a, ha⟩ := List.length_eq_one_iff.1 h
    have h0 := I.root
    rw [ha] at h0
    have h0 : a = [] := (List.mem_singleton.1 h0).symm
    subst h0
    apply List.eq_nil_iff_forall_not_mem.2
    intro w hw
    have := I.word_node hw
    rw [ha, List.mem_singleton] at this
    subst this
    exact I.nil hw
  · intro h
    have hall : ∀ q ∈ s.nodes, q = [] := by
      intro q hq
      have := I.cover q hq
      rw [h] at this
      rcases reaches_iff.1 this with h | ⟨_, h, _⟩
      · exact h
      · cases h
    have hn := I.nnodup
    have h0 := I.root
    cases hs : s.nodes with
    | nil => rw [hs] at h0; cases h0
    | cons a l =>
      rw [hs] at hall hn
      cases l with
      | nil => rfl
      | cons b l =>
        rw [hall a (by simp), hall b (by simp)] at hn
        simp at hn

theorem radExec_step {t : Trie} {s : RadixState} (I : RadixInv t s) (op : TrOp) :
    (trExec true t op).1 = (radSpec s op).1 ∧ RadixInv (trExec true t op).2 (radSpec s op).2 := by
  cases op with
  | insert x =>
    cases x with
    | none => exact ⟨rfl, I⟩
    | other => exact ⟨rfl, I⟩
    | str w =>
      cases hw : blank w with
      | true =>
        have e : t.radixInsert (.str w) = .error .valueError := by
          simp [Trie.radixInsert, validWord, hw]
        simp only [trExec, radSpec, e, hw, if_true]
        exact ⟨trivial, I⟩
      | false =>
        rcases I.insert hw with ⟨h1, e⟩ | ⟨h1, t', e, I'⟩
        · simp only [trExec, radSpec, e, hw, h1, if_true, Bool.false_eq_true, if_false]
          exact ⟨trivial, I⟩
        · simp only [trExec, radSpec, e, hw, h1, if_true, Bool.false_eq_true, if_false]
          exact ⟨trivial, I'⟩
  | remove x =>
    cases x with
    | none => exact ⟨rfl, I⟩
    | other => exact ⟨rfl, I⟩
    | str w =>
      rcases I.remove w with ⟨h1, e⟩ | ⟨h1, t', e, I'⟩
      · simp only [trExec, radSpec, e, h1, if_true]
        exact ⟨trivial, I⟩
      · by_cases hS : s.words = [w]
        · rw [if_pos hS] at e
          simp only [trExec, radSpec, e, h1, Bool.false_eq_true, if_false, if_pos hS]
          exact ⟨trivial, I'⟩
        · rw [if_neg hS] at e
          simp only [trExec, radSpec, e, h1, Bool.false_eq_true, if_false, if_neg hS]
          exact ⟨trivial, I'⟩
  | contains x =>
    cases x with
    | none => exact ⟨rfl, I⟩
    | other => exact ⟨rfl, I⟩
    | str w =>
      simp only [trExec, radSpec, I.contains]
      cases strayIn s.nodes w <;> exact ⟨rfl, I⟩
  | hasPrefix x =>
    cases x with
    | none => exact ⟨rfl, I⟩
    | other => exact ⟨rfl, I⟩
    | str w =>
      simp only [trExec, radSpec, I.hasPrefix]
      cases Extra.strayLast s.nodes w <;> cases strayIn s.nodes w <;> exact ⟨rfl, I⟩
  | len =>
    refine ⟨?_, I⟩
    simp only [trExec, radSpec, I.count, I.size]
  | isEmpty =>
    refine ⟨?_, I⟩
    simp only [trExec, radSpec, I.empty]
  | clear => exact ⟨rfl, RadixInv.new⟩

theorem radExecs_spec (ops : List TrOp) : ∀ {t : Trie} {s : RadixState}, RadixInv t s →
    (trExecs true ops t).1 = (radSpecs ops s).1 ∧
      RadixInv (trExecs true ops t).2 (radSpecs ops s).2 := by
  induction ops with
  | nil => intro t s I; exact ⟨rfl, I⟩
  | cons op ops ih =>
    intro t s I
    obtain ⟨h1, I'⟩ := radExec_step I op
    obtain ⟨h2, I''⟩ := ih I'
    simp only [trExecs, radSpecs]
    exact ⟨by rw [h1, h2], I''⟩

end Extra
