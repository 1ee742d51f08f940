import Verif.Trees.SuffixListProofs

/-!
# Patterns with the reserved characters (specification and lemmas)

The trie of a `SuffixTrie` is made of the suffixes, each with a mark and its position: `suffix$ ⟶ position`.
Patterns are looked up among these entries.
-/

namespace Extra

/-- the strings the trie is made of: every suffix with its mark and its position -/
def sufEntries (u : Word) : List Word :=
  (List.range (u.length + 1)).map (fun i => u.drop i ++ "$ ⟶ ".toList ++ (toString i).toList)

/-- the places of the entries in a tree: the root, the entries and the strings after which two entries go on
differently -/
def EntryPlace (u q : Word) : Prop :=
  q = [] ∨ q ∈ sufEntries u ∨ ∃ x ∈ sufEntries u, ∃ y ∈ sufEntries u, q <+: x ∧ q <+: y ∧
    x[q.length]? ≠ y[q.length]?

instance (u q : Word) : Decidable (EntryPlace u q) := inferInstanceAs (Decidable (_ ∨ _))

theorem sufEntries_eq (u : Word) : sufEntries u = suffixKeys u := by
  rw [sufEntries, suffixKeys]
  refine List.map_congr_left (fun i _ => ?_)
  rw [suffixKey]
  congr 1
  show (Nat.repr i).toList = _
  rw [Nat.repr, String.toList_ofList]

variable {s : SuffixTrie}

theorem SuffixInv.entry_no_brace (I : SuffixInv s) {k : Word} (hk : k ∈ suffixKeys s.word) : '}' ∉ k := by
  obtain ⟨i, _, rfl⟩ := mem_suffixKeys.1 hk
  exact not_brace_key I.brace i

theorem SuffixInv.node_no_brace (I : SuffixInv s) {q : Word} {v : TNode} (hv : NodeAt s.rt.root q v) :
    '}' ∉ q := by
  rcases I.trie.cover q _ ((mem_strs I.trie.ok).2 ⟨v, hv, rfl⟩) with rfl | ⟨k, hk, hq⟩
  · simp
  · exact fun h => I.entry_no_brace hk (hq.subset h)

theorem SuffixInv.node_iff (I : SuffixInv s) {q : Word} :
    (∃ v, NodeAt s.rt.root q v) ↔ EntryPlace s.word q := by
  rw [EntryPlace, sufEntries_eq]
  constructor
  · rintro ⟨v, hv⟩
    by_cases hq : q = []
    · exact Or.inl hq
    right
    rcases I.trie.branch q _ ((mem_strs I.trie.ok).2 ⟨v, hv, rfl⟩) hq with h | ⟨a, c, x, y, e, f, hac, h1, h2⟩
    · exact Or.inl h
    · right
      have key : ∀ {a : Char} {x : Word} {e : Bool}, (q ++ a :: x, e) ∈ s.rt.root.strs →
          ∃ k ∈ suffixKeys s.word, q <+: k ∧ k[q.length]? = some a := by
        intro a x e h
        rcases I.trie.cover _ _ h with h0 | ⟨k, hk, z, rfl⟩
        · simp at h0
        · exact ⟨_, hk, ⟨_, by rw [List.append_assoc]⟩, by simp⟩
      obtain ⟨k1, m1, p1, g1⟩ := key h1
      obtain ⟨k2, m2, p2, g2⟩ := key h2
      refine ⟨k1, m1, k2, m2, p1, p2, ?_⟩
      rw [g1, g2]
      exact fun h => hac (Option.some.inj h)
  · have leaf : ∀ {k}, k ∈ suffixKeys s.word → ∃ v, NodeAt s.rt.root k v := fun hk => by
      obtain ⟨v, hv, _⟩ := (mem_strs I.trie.ok).1 (I.trie.keys _ hk)
      exact ⟨v, hv⟩
    rintro (rfl | h | ⟨x, hx, y, hy, ⟨a, rfl⟩, ⟨c, rfl⟩, hne⟩)
    · exact ⟨_, .here _⟩
    · exact leaf h
    · cases a with
      | nil => rw [List.append_nil] at hx; exact leaf hx
      | cons a x =>
        cases c with
        | nil => rw [List.append_nil] at hy; exact leaf hy
        | cons c y =>
          have hac : a ≠ c := by
            rintro rfl
            apply hne
            simp
          obtain ⟨g, hg⟩ := strs_branch q.length le_rfl I.trie.ok hac (I.trie.keys _ hx) (I.trie.keys _ hy)
          obtain ⟨v, hv, _⟩ := (mem_strs I.trie.ok).1 hg
          exact ⟨v, hv⟩

/-- a pattern is lost at its first `}`, if what stands before it is a place -/
theorem SuffixInv.lost_iff (I : SuffixInv s) {q r r' : Word} (hq : '}' ∉ q) :
    Lost s.rt.root (q ++ '}' :: r) r' ↔ r' = r ∧ EntryPlace s.word q := by
  rw [← I.node_iff]
  constructor
  · rintro ⟨p, v, e, hv, _⟩
    have hp := I.node_no_brace hv
    have key : ∀ {a b c d : Word}, '}' ∉ a → '}' ∉ b → a ++ '}' :: c = b ++ '}' :: d → a = b ∧ c = d := by
      intro a
      induction a with
      | nil =>
        intro b c d _ hb e
        cases b with
        | nil => exact ⟨rfl, (List.cons.inj e).2⟩
        | cons x b => exact absurd (List.cons.inj e).1 (fun h => hb (by simp [← h]))
      | cons x a ih =>
        intro b c d ha hb e
        cases b with
        | nil => exact absurd (List.cons.inj e).1 (fun h => ha (by simp [h]))
        | cons y b =>
          obtain ⟨h1, e'⟩ := List.cons.inj e
          obtain ⟨h2, h3⟩ := ih (b := b) (c := c) (d := d) (fun h => ha (by simp [h]))
            (fun h => hb (by simp [h])) e'
          exact ⟨by rw [h1, h2], h3⟩
    obtain ⟨rfl, rfl⟩ := key hq hp e
    exact ⟨rfl, v, hv⟩
  · rintro ⟨rfl, v, hv⟩
    refine ⟨q, v, rfl, hv, ?_⟩
    cases hc : v.kids.child '}' with
    | none => rfl
    | some u =>
      exfalso
      obtain ⟨hd, _⟩ := (hv.ok I.trie.ok).child hc
      refine I.node_no_brace (hv.trans (.child hc)) (List.mem_append_right _ ?_)
      cases hu : u.data with
      | nil => rw [hu] at hd; cases hd
      | cons a d => rw [hu] at hd; simp at hd; simp [hd]

end Extra
