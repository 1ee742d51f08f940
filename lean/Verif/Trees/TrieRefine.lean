import Verif.Trees.TrieOps

/-!
# `Trie` refines a list of words
-/

set_option linter.unusedSimpArgs false

namespace Extra

theorem reaches_iff {S : List Word} {p : Word} :
    reaches S p = true ↔ p = [] ∨ ∃ w ∈ S, p <+: w := by
  simp [reaches, List.any_eq_true]

/-- the trie holds exactly the words `S`, and its nodes are exactly their prefixes -/
structure TrieInv (t : Trie) (S : List Word) : Prop where
  ok : t.root.kids.Ok
  words : ∀ q, (q, true) ∈ t.root.strs ↔ q ∈ S
  nodes : ∀ q, (∃ b, (q, b) ∈ t.root.strs) ↔ reaches S q = true
  nodup : S.Nodup
  count : t.count = t.root.size
  nil : [] ∉ S
  data : t.root.data = "ROOT".toList

theorem TrieInv.rootWord {t : Trie} {S : List Word} (I : TrieInv t S) : t.root.word = false := by
  cases h : t.root.word with
  | false => rfl
  | true =>
    have := (I.words []).1 ((TNode.strs_nil I.ok).2 h.symm)
    exact absurd this I.nil

theorem TrieInv.new : TrieInv Trie.new [] := by
  refine ⟨trivial, ?_, ?_, List.nodup_nil, rfl, by simp, rfl⟩
  · intro q; simp [Trie.new, TNode.strs, Kids.strs]
  · intro q
    rw [reaches_iff]
    simp [Trie.new, TNode.strs, Kids.strs]

theorem reaches_prefix {S : List Word} {p q : Word} (h : reaches S q = true) (hp : p <+: q) :
    reaches S p = true := by
  rw [reaches_iff] at h ⊢
  rcases h with rfl | ⟨w, hw, h⟩
  · exact Or.inl (List.prefix_nil.1 hp)
  · exact Or.inr ⟨w, hw, hp.trans h⟩

/-- in a `Trie` every node is labelled with one character -/
theorem TrieInv.single {t : Trie} {S : List Word} (I : TrieInv t S) {p : Word} {v u : TNode}
    {c : Char} (hr : NodeAt t.root p v) (hu : v.kids.child c = some u) : u.data = [c] := by
  have hv := hr.ok I.ok
  obtain ⟨hd, _⟩ := hv.child hu
  have h1 : reaches S (p ++ u.data) = true := by
    rw [← I.nodes]
    exact ⟨u.word, (mem_strs I.ok).2 ⟨u, hr.trans (.child hu), rfl⟩⟩
  have h2 : reaches S (p ++ [c]) = true := by
    apply reaches_prefix h1
    rw [List.prefix_append_right_inj]
    cases hh : u.data with
    | nil => rw [hh] at hd; cases hd
    | cons a d => rw [hh] at hd; cases hd; exact ⟨d, rfl⟩
  obtain ⟨b, hb⟩ := (I.nodes _).2 h2
  rw [hr.strs I.ok] at hb
  obtain ⟨u', q, hu', e, _⟩ := (TNode.strs_cons hv).1 hb
  rw [hu] at hu'
  cases hu'
  have hpos := List.length_pos_of_ne_nil (data_ne hd)
  have hl := congrArg List.length e
  simp at hl
  have hq : q = [] := List.eq_nil_of_length_eq_zero (by omega)
  rw [hq, List.append_nil] at e
  exact e.symm

theorem TrieInv.lost {t : Trie} {S : List Word} (I : TrieInv t S) {w r : Word} :
    Lost t.root w r ↔ ∃ p, w = p ++ '}' :: r ∧ reaches S p = true ∧ ¬ reaches S (p ++ ['}']) = true := by
  constructor
  · rintro ⟨p, v, rfl, hr, hc⟩
    refine ⟨p, rfl, (I.nodes p).1 ⟨v.word, (mem_strs I.ok).2 ⟨v, hr, rfl⟩⟩, ?_⟩
    rw [← I.nodes]
    rintro ⟨b, hb⟩
    rw [hr.strs I.ok] at hb
    obtain ⟨u, q, hu, _⟩ := (TNode.strs_cons (hr.ok I.ok)).1 hb
    rw [hc] at hu; cases hu
  · rintro ⟨p, rfl, h1, h2⟩
    obtain ⟨b, hb⟩ := (I.nodes p).2 h1
    obtain ⟨v, hr, _⟩ := (mem_strs I.ok).1 hb
    refine ⟨p, v, rfl, hr, ?_⟩
    cases hc : v.kids.child '}' with
    | none => rfl
    | some u =>
      exfalso
      apply h2
      rw [← I.nodes, ← I.single hr hc]
      exact ⟨u.word, (mem_strs I.ok).2 ⟨u, hr.trans (.child hc), rfl⟩⟩

theorem braceAt_iff {S : List Word} {w : Word} {i : Nat} : braceAt S w i = true ↔
    ∃ p r, w = p ++ '}' :: r ∧ p.length = i ∧ reaches S p = true ∧
      ¬ reaches S (p ++ ['}']) = true := by
  simp only [braceAt, Bool.and_eq_true, decide_eq_true_eq, Bool.not_eq_true', Bool.not_eq_true]
  constructor
  · rintro ⟨⟨h1, h2⟩, h3⟩
    obtain ⟨hi, h1⟩ := List.getElem?_eq_some_iff.1 h1
    have hd : w.drop i = '}' :: w.drop (i + 1) := by
      rw [List.drop_eq_getElem_cons hi, h1]
    refine ⟨w.take i, w.drop (i + 1), ?_, by simp; omega, h2, ?_⟩
    · rw [← hd, List.take_append_drop]
    · rw [List.take_add_one, List.getElem?_eq_getElem hi, h1] at h3
      exact h3
  · rintro ⟨p, r, rfl, rfl, h1, h2⟩
    refine ⟨⟨by simp, by simpa using h1⟩, ?_⟩
    have : (p ++ '}' :: r).take (p.length + 1) = p ++ ['}'] := by
      rw [List.take_append, List.take_of_length_le (by omega)]; simp
    rw [this]
    simpa using h2

theorem braceIn_iff {S : List Word} {w : Word} : braceIn S w = true ↔
    ∃ r p, w = p ++ '}' :: r ∧ reaches S p = true ∧ ¬ reaches S (p ++ ['}']) = true := by
  simp only [braceIn, List.any_eq_true, List.mem_range, braceAt_iff]
  constructor
  · rintro ⟨i, _, p, r, h1, _, h2, h3⟩; exact ⟨r, p, h1, h2, h3⟩
  · rintro ⟨r, p, rfl, h2, h3⟩; exact ⟨p.length, by simp, p, r, rfl, rfl, h2, h3⟩

theorem braceLast_iff {S : List Word} {w : Word} : braceLast S w = true ↔
    ∃ p, w = p ++ ['}'] ∧ reaches S p = true ∧ ¬ reaches S (p ++ ['}']) = true := by
  simp only [braceLast, List.any_eq_true, List.mem_range, Bool.and_eq_true, braceAt_iff,
    decide_eq_true_eq]
  constructor
  · rintro ⟨i, _, ⟨p, r, rfl, rfl, h2, h3⟩, hl⟩
    have : r = [] := List.eq_nil_of_length_eq_zero (by
      rw [List.length_append, List.length_cons] at hl; omega)
    subst this
    exact ⟨p, rfl, h2, h3⟩
  · rintro ⟨p, rfl, h2, h3⟩; exact ⟨p.length, by simp, ⟨p, [], rfl, rfl, h2, h3⟩, by simp⟩

theorem TrieInv.brace {t : Trie} {S : List Word} (I : TrieInv t S) {w : Word} :
    braceIn S w = true ↔ ∃ r, Lost t.root w r := by
  rw [braceIn_iff]
  simp only [I.lost]

theorem TrieInv.braceLast {t : Trie} {S : List Word} (I : TrieInv t S) {w : Word} :
    braceLast S w = true ↔ Lost t.root w [] := by
  rw [braceLast_iff, I.lost]

/-! ## Calls -/

theorem TrieInv.contains {t : Trie} {S : List Word} (I : TrieInv t S) (w : Word) :
    t.contains (.str w) =
      if braceIn S w then .error .attributeError else .ok (decide (w ∈ S)) := by
  rcases trieContains_spec t I.ok w with ⟨h1, h2⟩ | ⟨h1, h2⟩
  · rw [if_pos (I.brace.2 h1), h2]
  · rw [if_neg (fun h => h1 (I.brace.1 h)), h2]
    simp only [I.words]

theorem TrieInv.hasPrefix {t : Trie} {S : List Word} (I : TrieInv t S) (w : Word) :
    t.hasPrefix (.str w) =
      if Extra.braceLast S w then .ok true
      else if braceIn S w then .error .attributeError else .ok (reaches S w) := by
  rcases hasPrefix_spec t I.ok w with ⟨h1, b, h2, h3⟩ | ⟨r, l, h2⟩
  · rw [if_neg (fun h => h1 ⟨[], I.braceLast.1 h⟩), if_neg (fun h => h1 (I.brace.1 h)), h2]
    congr 1
    rw [Bool.eq_iff_iff, h3]
    constructor
    · rintro ⟨q, b', hq, hp⟩
      exact reaches_prefix ((I.nodes q).1 ⟨b', hq⟩) hp
    · intro h
      obtain ⟨b', hb⟩ := (I.nodes w).2 h
      exact ⟨w, b', hb, List.prefix_refl _⟩
  · rw [h2]
    by_cases hr : r = []
    · subst hr
      rw [if_pos rfl, if_pos (I.braceLast.2 l)]
    · rw [if_neg hr, if_neg (fun h => hr (l.unique I.ok (I.braceLast.1 h))), if_pos (I.brace.2 ⟨r, l⟩)]

theorem blank_nil : blank [] = true := rfl

theorem TrieInv.insert {t : Trie} {S : List Word} (I : TrieInv t S) {w : Word}
    (hw : blank w = false) :
    (braceIn S w = true ∧ t.insert (.str w) = .error .attributeError) ∨
    (braceIn S w = false ∧ ∃ t', t.insert (.str w) = .ok t' ∧
      TrieInv t' (if w ∈ S then S else S ++ [w])) := by
  have hne : w ≠ [] := by rintro rfl; rw [blank_nil] at hw; cases hw
  have hval : validWord false (.str w) = .ok w := by simp [validWord, hw]
  by_cases hb : braceIn S w = true
  · left
    refine ⟨hb, ?_⟩
    obtain ⟨r, l⟩ := I.brace.1 hb
    obtain ⟨r', _, e⟩ := follow_lost I.ok l
    simp only [Trie.insert, hval, e]
    by_cases hr : r' = []
    · simp [hr]
    · simp [hr]
  · right
    refine ⟨by simpa using hb, ?_⟩
    obtain ⟨p, v, r, e, rfl, hr, s⟩ := follow_not_lost I.ok (fun h => hb (I.brace.2 h))
    have hchild : ∀ c r', r = c :: r' → v.kids.child c = none := by
      rintro c r' rfl
      rcases s with s | ⟨c', r'', e', s⟩
      · cases s
      · cases e'
        rcases s with ⟨s, _⟩ | ⟨u, hu, s⟩
        · exact s
        · rw [I.single hr hu] at s
          exact absurd ⟨r', rfl⟩ s
    obtain ⟨a1, a2, ⟨v', a3⟩, a4, a5, a6⟩ := addLoop_spec r t p v I.ok hr hchild
    obtain ⟨m1, m2, m3, m4, m5, m6⟩ := mark_spec true a2 a3
    refine ⟨(addLoop r t p).1.mark true (p ++ r), ?_, ?_⟩
    · simp only [Trie.insert, hval, e, a1]
    · have hmem : ∀ q, q ∈ (if p ++ r ∈ S then S else S ++ [p ++ r]) ↔ q = p ++ r ∨ q ∈ S := by
        intro q
        by_cases hin : p ++ r ∈ S
        · rw [if_pos hin]
          exact ⟨Or.inr, fun h => h.elim (fun h => h ▸ hin) id⟩
        · rw [if_neg hin, List.mem_append, List.mem_singleton, or_comm]
      have hnode : ∀ b, (p, b) ∈ t.root.strs → reaches S p = true := fun b hb =>
        (I.nodes p).1 ⟨b, hb⟩
      have hpn := hnode _ ((mem_strs I.ok).2 ⟨v, hr, rfl⟩)
      refine ⟨m1, ?_, ?_, ?_, ?_, ?_, by rw [m5, a5]; exact I.data⟩
      · intro q
        rw [m6, hmem, a6]
        constructor
        · rintro (⟨h1, _⟩ | ⟨_, h1 | ⟨h1, _⟩⟩)
          · exact Or.inl h1
          · exact Or.inr ((I.words q).1 h1)
          · cases h1
        · intro h1
          by_cases hq : q = p ++ r
          · exact Or.inl ⟨hq, rfl⟩
          · refine Or.inr ⟨hq, Or.inl ((I.words q).2 ?_)⟩
            rcases h1 with h1 | h1
            · exact absurd h1 hq
            · exact h1
      · intro q
        have hreach : reaches (if p ++ r ∈ S then S else S ++ [p ++ r]) q = true ↔
            reaches S q = true ∨ q <+: p ++ r := by
          rw [reaches_iff, reaches_iff]
          simp only [hmem]
          constructor
          · rintro (h1 | ⟨w, rfl | h1, h2⟩)
            · exact Or.inl (Or.inl h1)
            · exact Or.inr h2
            · exact Or.inl (Or.inr ⟨w, h1, h2⟩)
          · rintro ((h1 | ⟨w, h1, h2⟩) | h2)
            · exact Or.inl h1
            · exact Or.inr ⟨w, Or.inr h1, h2⟩
            · exact Or.inr ⟨_, Or.inl rfl, h2⟩
        rw [hreach]
        simp only [m6, a6]
        constructor
        · rintro ⟨b, ⟨rfl, _⟩ | ⟨_, h1 | ⟨_, r1, _, h1, rfl⟩⟩⟩
          · exact Or.inr (List.prefix_refl _)
          · exact Or.inl ((I.nodes q).1 ⟨b, h1⟩)
          · exact Or.inr ((List.prefix_append_right_inj _).2 h1)
        · intro h1
          by_cases hq : q = p ++ r
          · exact ⟨true, Or.inl ⟨hq, rfl⟩⟩
          · rcases h1 with h1 | h1
            · obtain ⟨b, hb⟩ := (I.nodes q).2 h1
              exact ⟨b, Or.inr ⟨hq, Or.inl hb⟩⟩
            · rcases List.prefix_or_prefix_of_prefix h1 ⟨r, rfl⟩ with h2 | ⟨r1, rfl⟩
              · obtain ⟨b, hb⟩ := (I.nodes q).2 (reaches_prefix hpn h2)
                exact ⟨b, Or.inr ⟨hq, Or.inl hb⟩⟩
              · by_cases hr1 : r1 = []
                · subst hr1
                  obtain ⟨b, hb⟩ := (I.nodes p).2 hpn
                  rw [List.append_nil] at hq ⊢
                  exact ⟨b, Or.inr ⟨hq, Or.inl hb⟩⟩
                · exact ⟨false, Or.inr ⟨hq, Or.inr ⟨rfl, r1, hr1,
                    (List.prefix_append_right_inj _).1 h1, rfl⟩⟩⟩
      · by_cases hin : p ++ r ∈ S
        · rw [if_pos hin]; exact I.nodup
        · rw [if_neg hin]
          rw [List.nodup_append]
          refine ⟨I.nodup, by simp, ?_⟩
          intro a ha b hb
          rw [List.mem_singleton] at hb
          rintro rfl
          exact hin (hb ▸ ha)
      · rw [m4, m3]
        have := I.count
        omega
      · rw [hmem]
        rintro (h1 | h1)
        · exact hne h1.symm
        · exact I.nil h1

theorem TrieInv.remove {t : Trie} {S : List Word} (I : TrieInv t S) (w : Word) :
    (braceIn S w = true ∧ t.remove (.str w) = (.error .attributeError, t)) ∨
    (braceIn S w = false ∧ S = [w] ∧ ∃ t', t.remove (.str w) = (.error .attributeError, t') ∧
      TrieInv t' []) ∨
    (braceIn S w = false ∧ S ≠ [w] ∧ ∃ t', t.remove (.str w) = (.ok false, t') ∧
      TrieInv t' (S.erase w)) := by
  cases w with
  | nil =>
    right; right
    refine ⟨rfl, ?_, t, rfl, ?_⟩
    · rintro rfl; exact I.nil (by simp)
    · rw [List.erase_of_not_mem I.nil]; exact I
  | cons c w =>
    by_cases hb : braceIn S (c :: w) = true
    · left
      refine ⟨hb, ?_⟩
      obtain ⟨r, l⟩ := I.brace.1 hb
      obtain ⟨r', _, e⟩ := follow_lost I.ok l
      simp only [Trie.remove, e]
      by_cases hr : r' = []
      · simp [hr]
      · simp [hr]
    · right
      have hb' : braceIn S (c :: w) = false := by simpa using hb
      obtain ⟨p, v, r, e, e', hr, s⟩ := follow_not_lost I.ok (fun h => hb (I.brace.2 h))
      cases r with
      | cons a r =>
        right
        have hnot : c :: w ∉ S := by
          rw [← I.words, e', hr.strs I.ok]
          intro hh
          cases s.mem (hr.ok I.ok) hh
        refine ⟨hb', ?_, t, ?_, ?_⟩
        · rintro rfl; exact hnot (by simp)
        · simp only [Trie.remove, e]
        · rw [List.erase_of_not_mem hnot]; exact I
      | nil =>
        rw [List.append_nil] at e'
        subst e'
        obtain ⟨m1, m2, m3, m4, m5, m6⟩ := mark_spec false I.ok hr
        have hwords : ∀ q, (q, true) ∈ (t.mark false (c :: w)).root.strs ↔ q ≠ c :: w ∧ q ∈ S := by
          intro q
          rw [m6, I.words]
          simp
        have hflag : (t.mark false (c :: w)).root.word = false := by
          have := (TNode.strs_nil m1 (b := t.root.word)).1 (m6.2 (Or.inr
            ⟨by simp, (TNode.strs_nil I.ok).2 rfl⟩))
          rw [← this]; exact I.rootWord
        have hex : ∀ q, (∃ b, (q, b) ∈ (t.mark false (c :: w)).root.strs) ↔ reaches S q = true := by
          intro q
          rw [← I.nodes]
          simp only [m6]
          constructor
          · rintro ⟨b, ⟨rfl, _⟩ | ⟨_, h⟩⟩
            · exact ⟨v.word, (mem_strs I.ok).2 ⟨v, hr, rfl⟩⟩
            · exact ⟨b, h⟩
          · rintro ⟨b, h⟩
            by_cases hq : q = c :: w
            · exact ⟨false, Or.inl ⟨hq, rfl⟩⟩
            · exact ⟨b, Or.inr ⟨hq, h⟩⟩
        obtain ⟨res, t', e2, c1, c2, c3, c4, c5, c6⟩ := climb_spec ((c :: w).length + 1)
          (t.mark false (c :: w)) (c :: w) _ (Nat.lt_succ_self _) m1 (by rw [m5, I.data]; decide) hflag m2
          (by
            intro q b hq hne
            have := (hex q).1 ⟨b, hq⟩
            rw [reaches_iff] at this
            rcases this with h | ⟨x, hx, hp⟩
            · exact absurd h hne
            · by_cases hxw : x = c :: w
              · exact Or.inr (hxw ▸ hp)
              · exact Or.inl ⟨x, (hwords x).2 ⟨hxw, hx⟩, hp⟩)
        have hinv : TrieInv t' (S.erase (c :: w)) := by
          have hmem : ∀ q, q ∈ S.erase (c :: w) ↔ q ≠ c :: w ∧ q ∈ S := fun q => I.nodup.mem_erase_iff
          refine ⟨c1, ?_, ?_, I.nodup.erase _, ?_, ?_, by rw [c2, m5]; exact I.data⟩
          · intro q
            rw [c3, hwords, hmem]
            constructor
            · exact fun h => h.1
            · exact fun h => ⟨h, Or.inr ⟨q, (hwords q).2 h, List.prefix_refl _⟩⟩
          · intro q
            simp only [c3]
            rw [reaches_iff]
            constructor
            · rintro ⟨b, _, h | ⟨x, hx, hp⟩⟩
              · exact Or.inl h
              · exact Or.inr ⟨x, (hmem x).2 ((hwords x).1 hx), hp⟩
            · rintro (rfl | ⟨x, hx, hp⟩)
              · exact ⟨_, (TNode.strs_nil m1).2 rfl, Or.inl rfl⟩
              · obtain ⟨b, hb⟩ := (hex q).2 (reaches_iff.2 (Or.inr ⟨x, ((hmem x).1 hx).2, hp⟩))
                exact ⟨b, hb, Or.inr ⟨x, (hwords x).2 ((hmem x).1 hx), hp⟩⟩
          · have := I.count
            omega
          · rw [hmem]; exact fun h => I.nil h.2
        by_cases hS : S = [c :: w]
        · left
          refine ⟨hb', hS, t', ?_, ?_⟩
          · have : res = .error .attributeError := c6 (by
              rintro ⟨x, hx⟩
              obtain ⟨h1, h2⟩ := (hwords x).1 hx
              rw [hS] at h2
              exact h1 (by simpa using h2))
            subst this
            simp only [Trie.remove, e, e2]
          · rw [hS] at hinv
            simpa using hinv
        · right
          refine ⟨hb', hS, t', ?_, hinv⟩
          have : res = .ok () := c5 (by
            by_contra hno
            have hall : ∀ x ∈ S, x = c :: w := by
              intro x hx
              by_contra hxw
              exact hno ⟨x, (hwords x).2 ⟨hxw, hx⟩⟩
            have hmemw : reaches S (c :: w) = true := (I.nodes _).1 ⟨_, (mem_strs I.ok).2 ⟨v, hr, rfl⟩⟩
            rw [reaches_iff] at hmemw
            rcases hmemw with h | ⟨x, hx, _⟩
            · cases h
            · have hin : c :: w ∈ S := hall x hx ▸ hx
              apply hS
              have hn := I.nodup
              cases S with
              | nil => simp at hin
              | cons y S =>
                have hy := hall y (by simp)
                cases S with
                | nil => rw [hy]
                | cons z S =>
                  have hz := hall z (by simp)
                  rw [hy, hz] at hn
                  simp at hn)
          subst this
          simp only [Trie.remove, e, e2]

theorem mem_prefixesOf {S : List Word} {p : Word} :
    p ∈ prefixesOf S ↔ p ≠ [] ∧ ∃ w ∈ S, p <+: w := by
  simp only [prefixesOf, List.mem_filter, List.mem_dedup, List.mem_flatMap, List.mem_inits,
    decide_eq_true_eq]
  tauto

theorem TrieInv.size {t : Trie} {S : List Word} (I : TrieInv t S) :
    t.root.size = 1 + (prefixesOf S).length := by
  have h1 := TNode.nodup I.ok
  have h2 : ([] :: prefixesOf S).Nodup := by
    rw [List.nodup_cons]
    refine ⟨fun h => (mem_prefixesOf.1 h).1 rfl, (List.nodup_dedup _).filter _⟩
  have hp : (t.root.strs.map Prod.fst).Perm ([] :: prefixesOf S) := by
    rw [List.perm_ext_iff_of_nodup h1 h2]
    intro q
    have : q ∈ t.root.strs.map Prod.fst ↔ ∃ b, (q, b) ∈ t.root.strs := by simp
    rw [this, I.nodes, reaches_iff, List.mem_cons, mem_prefixesOf]
    tauto
  have := hp.length_eq
  simp at this
  rw [TNode.size]
  omega

theorem trExec_step {t : Trie} {S : List Word} (I : TrieInv t S) (op : TrOp) :
    (trExec false t op).1 = (trSpec S op).1 ∧ TrieInv (trExec false t op).2 (trSpec S op).2 := by
  cases op with
  | insert x =>
    cases x with
    | none => exact ⟨rfl, I⟩
    | other => exact ⟨rfl, I⟩
    | str w =>
      cases hw : blank w with
      | true =>
        have : t.insert (.str w) = .error .valueError := by simp [Trie.insert, validWord, hw]
        simp only [trExec, trSpec, this, hw, if_true]
        exact ⟨rfl, I⟩
      | false =>
        rcases I.insert hw with ⟨h1, h2⟩ | ⟨h1, t', h2, h3⟩
        · simp only [trExec, trSpec, h1, h2, hw, if_true]
          exact ⟨rfl, I⟩
        · simp only [trExec, trSpec, h1, h2, hw]
          exact ⟨rfl, h3⟩
  | remove x =>
    cases x with
    | none => exact ⟨rfl, I⟩
    | other => exact ⟨rfl, I⟩
    | str w =>
      rcases I.remove w with ⟨h1, h2⟩ | ⟨h1, hS, t', h2, h3⟩ | ⟨h1, hS, t', h2, h3⟩
      · simp only [trExec, trSpec, h1, h2, if_true]
        exact ⟨trivial, I⟩
      · simp only [trExec, trSpec, h1, h2, if_pos hS]
        exact ⟨rfl, h3⟩
      · simp only [trExec, trSpec, h1, h2, if_neg hS]
        exact ⟨rfl, h3⟩
  | contains x =>
    cases x with
    | none => exact ⟨rfl, I⟩
    | other => exact ⟨rfl, I⟩
    | str w =>
      simp only [trExec, trSpec, I.contains]
      cases braceIn S w <;> exact ⟨rfl, I⟩
  | hasPrefix x =>
    cases x with
    | none => exact ⟨rfl, I⟩
    | other => exact ⟨rfl, I⟩
    | str w =>
      simp only [trExec, trSpec, I.hasPrefix]
      cases Extra.braceLast S w <;> cases braceIn S w <;> exact ⟨rfl, I⟩
  | len =>
    simp only [trExec, trSpec, I.count, I.size]
    exact ⟨by simp, I⟩
  | isEmpty =>
    simp only [trExec, trSpec, Trie.isEmpty, I.count, I.size]
    refine ⟨?_, I⟩
    have : ((1 + (prefixesOf S).length : Nat) : Int) = 1 ↔ S = [] := by
      constructor
      · intro h
        have hl : prefixesOf S = [] := List.eq_nil_of_length_eq_zero (by omega)
        cases S with
        | nil => rfl
        | cons w S =>
          have : w ∈ prefixesOf (w :: S) := mem_prefixesOf.2
            ⟨fun h => I.nil (by simp [h]), w, by simp, List.prefix_refl _⟩
          rw [hl] at this
          simp at this
      · rintro rfl; rfl
    simp only [this]
  | clear => exact ⟨rfl, TrieInv.new⟩

theorem trExecs_spec : ∀ (ops : List TrOp) {t : Trie} {S : List Word}, TrieInv t S →
    (trExecs false ops t).1 = (trSpecs ops S).1 ∧ TrieInv (trExecs false ops t).2 (trSpecs ops S).2
  | [], _, _, I => ⟨rfl, I⟩
  | op :: ops, t, S, I => by
    obtain ⟨h1, h2⟩ := trExec_step I op
    obtain ⟨h3, h4⟩ := trExecs_spec ops h2
    simp only [trExecs, trSpecs]
    exact ⟨by rw [h1, h3], h4⟩

end Extra
