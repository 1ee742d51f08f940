import Verif.Trees.TrieIterationProofs

/-!
# Property C115: iterating over a trie while words are inserted and removed

A string that leads to a node is given by its last part, the `_data` of the node.  `trSpecs ops []` are the words a
`Trie` should hold after the calls `ops`, `radSpecs` those of a `RadixTrie` and the strings of its nodes.
-/

namespace Extra

private theorem trie_at (ops : List TrOp) (bs : List (TreeAct TrOp)) :
    TrieInv (trExecs false (callsOf bs) (trExecs false ops Trie.new).2).2 (trSpecs (ops ++ callsOf bs) []).2 := by
  rw [← trExecs_append]
  exact (trExecs_spec _ TrieInv.new).2

private theorem radix_at (ops : List TrOp) (bs : List (TreeAct TrOp)) :
    RadixInv (trExecs true (callsOf bs) (trExecs true ops Trie.new).2).2 (radSpecs (ops ++ callsOf bs) ⟨[], [[]]⟩).2 := by
  rw [← trExecs_append]
  exact (radExecs_spec _ RadixInv.new).2

private theorem spelt_strs {t : Trie} (h : t.root.kids.Ok) {p : Word} : Spelt t p ↔ ∃ b, (p, b) ∈ t.root.strs :=
  ⟨fun ⟨v, r⟩ => ⟨v.word, (mem_strs h).2 ⟨v, r, rfl⟩⟩, fun ⟨_, hb⟩ => ((mem_strs h).1 hb).imp fun _ h => h.1⟩

private theorem trie_data {t : Trie} {S : List Word} (I : TrieInv t S) {p : Word} {v : TNode} (hp : p ≠ [])
    (r : NodeAt t.root p v) : ∃ q c, p = q ++ [c] ∧ v.data = [c] := by
  obtain ⟨q, u, c, rfl, ru, hu⟩ := r.snoc I.ok hp
  have hd := ((ru.ok I.ok).child hu).1
  obtain ⟨d, ed⟩ : ∃ d, v.data = c :: d := by
    cases h : v.data with
    | nil => rw [h] at hd; cases hd
    | cons a d => rw [h] at hd; cases hd; exact ⟨d, rfl⟩
  have h1 : Spelt t (q ++ [c]) := by
    rw [spelt_strs I.ok, I.nodes]
    refine reaches_prefix ((I.nodes _).1 ((spelt_strs I.ok).1 ⟨v, r⟩)) ?_
    rw [ed, List.prefix_append_right_inj]
    exact ⟨d, rfl⟩
  obtain ⟨x, rx⟩ := h1
  have hm := (ru.strs I.ok).1 ((mem_strs I.ok).2 ⟨x, rx, rfl⟩)
  obtain ⟨u', q', hu', e, _⟩ := (TNode.strs_cons (ru.ok I.ok)).1 hm
  rw [hu] at hu'; cases hu'
  rw [ed] at e
  simp at e
  rw [ed, e.1]
  exact ⟨q, c, rfl, rfl⟩

private theorem suffix_data {t : Trie} (h : t.root.kids.Ok) {p : Word} {v : TNode} (hp : p ≠ [])
    (r : NodeAt t.root p v) : v.data <:+ p ∧ v.data ≠ [] := by
  obtain ⟨q, u, c, rfl, ru, hu⟩ := r.snoc h hp
  exact ⟨List.suffix_append _ _, data_ne ((ru.ok h).child hu).1⟩

/-- **C115.**  While words are inserted into a `Trie` and removed from it, a generator over it raises no error.  It gives the
last characters of different non-empty strings, each of which some word of the trie started with at some time.  When it
stops, it has given all non-empty strings that some word started with all the time. -/
theorem C115_trie (ops : List TrOp) (as : List (TreeAct TrOp)) (hc : .call .clear ∉ as) :
    ∃ P : List Word, P.Nodup ∧
      List.Forall₂ (fun p v => (∃ q c, p = q ++ [c] ∧ v = [c]) ∧
        ∃ bs, bs <+: as ∧ reaches (trSpecs (ops ++ callsOf bs) []).2 p = true) P
        (TreeStep.values (trIterates false ops as)) ∧
      (∀ e, .raised e ∉ trIterates false ops as) ∧
      (.stop ∈ trIterates false ops as → ∀ p, p ≠ [] →
        (∀ bs, bs <+: as → reaches (trSpecs (ops ++ callsOf bs) []).2 p = true) → p ∈ P) := by
  have key := acts_held (R := fun p v => (∃ q c, p = q ++ [c] ∧ v = [c]) ∧
        ∃ bs, bs <+: as ∧ reaches (trSpecs (ops ++ callsOf bs) []).2 p = true)
    (K := fun p => p ≠ [] ∧ ∀ bs, bs <+: as → reaches (trSpecs (ops ++ callsOf bs) []).2 p = true)
    false (fun p h => h.1) as (trExecs false ops Trie.new).2 .fresh [] rfl hc ?_ ?_
  · obtain ⟨P, h1, h2, h3, h4⟩ := key
    exact ⟨P, by simpa using h1, h2, h3, fun hs p hp ha => by simpa using h4 hs p ⟨hp, ha⟩⟩
  · intro bs hb
    have I := trie_at ops bs
    refine ⟨⟨I.ok, I.count, fun p v hp r => ⟨trie_data I hp r, bs, hb, ?_⟩⟩, fun p hp => ?_⟩
    · exact (I.nodes p).1 ((spelt_strs I.ok).1 ⟨v, r⟩)
    · exact (spelt_strs I.ok).2 ((I.nodes p).2 (hp.2 bs hb))
  · intro bs op hb q p hqp _ _ hp
    have I := trie_at ops bs
    have I' := (trExec_step I op).2
    rw [spelt_strs I'.ok, I'.nodes] at hp ⊢
    exact reaches_prefix hp hqp

/-- **C115.**  So over a `RadixTrie`, which gives the last parts of the strings of its nodes; when it stops, it has given
every node that was there all the time, so every word that was. -/
theorem C115_radix (ops : List TrOp) (as : List (TreeAct TrOp)) (hc : .call .clear ∉ as) :
    ∃ P : List Word, P.Nodup ∧
      List.Forall₂ (fun p v => (v <:+ p ∧ v ≠ []) ∧
        ∃ bs, bs <+: as ∧ p ∈ (radSpecs (ops ++ callsOf bs) ⟨[], [[]]⟩).2.nodes) P
        (TreeStep.values (trIterates true ops as)) ∧
      (∀ e, .raised e ∉ trIterates true ops as) ∧
      (.stop ∈ trIterates true ops as →
        (∀ p, p ≠ [] → (∀ bs, bs <+: as → p ∈ (radSpecs (ops ++ callsOf bs) ⟨[], [[]]⟩).2.nodes) → p ∈ P) ∧
        ∀ w, (∀ bs, bs <+: as → w ∈ (radSpecs (ops ++ callsOf bs) ⟨[], [[]]⟩).2.words) → w ∈ P) := by
  have key := acts_held (R := fun p v => (v <:+ p ∧ v ≠ []) ∧
        ∃ bs, bs <+: as ∧ p ∈ (radSpecs (ops ++ callsOf bs) ⟨[], [[]]⟩).2.nodes)
    (K := fun p => p ≠ [] ∧ ∀ bs, bs <+: as → p ∈ (radSpecs (ops ++ callsOf bs) ⟨[], [[]]⟩).2.nodes)
    true (fun p h => h.1) as (trExecs true ops Trie.new).2 .fresh [] rfl hc ?_ ?_
  · obtain ⟨P, h1, h2, h3, h4⟩ := key
    refine ⟨P, by simpa using h1, h2, h3, fun hs => ⟨fun p hp ha => by simpa using h4 hs p ⟨hp, ha⟩, fun w hw => ?_⟩⟩
    have := h4 hs w ⟨fun e => ?_, fun bs hb => ?_⟩
    · simpa using this
    · exact (radix_at ops []).nil (e ▸ hw [] List.nil_prefix)
    · have I := radix_at ops bs
      exact (I.nodes w).1 ⟨true, (I.words w).2 (hw bs hb)⟩
  · intro bs hb
    have I := radix_at ops bs
    refine ⟨⟨I.ok, I.count, fun p v hp r => ⟨suffix_data I.ok hp r, bs, hb, ?_⟩⟩, fun p hp => ?_⟩
    · exact (I.nodes p).1 ((spelt_strs I.ok).1 ⟨v, r⟩)
    · exact (spelt_strs I.ok).2 ((I.nodes p).2 (hp.2 bs hb))
  · intro bs op hb q p hqp hq hp hp'
    have I := radix_at ops bs
    have I' := (radExec_step I op).2
    rw [spelt_strs I.ok, I.nodes] at hq hp
    rw [spelt_strs I'.ok, I'.nodes] at hp' ⊢
    generalize (radSpecs (ops ++ callsOf bs) ⟨[], [[]]⟩).2 = s at hq hp hp' ⊢
    have hadd : ∀ {S : List Word} {x y : Word}, x ∈ S → x ∈ addNew S y := by
      intro S x y h; unfold addNew; split
      · exact h
      · exact List.mem_append_left _ h
    match op with
    | .insert .none | .insert .other | .remove .none | .remove .other | .contains .none | .contains .other
    | .hasPrefix .none | .hasPrefix .other | .len | .isEmpty | .contains (.str _) | .hasPrefix (.str _) => exact hq
    | .insert (.str w) =>
      simp only [radSpec]
      split
      · exact hq
      · split
        · exact hq
        · exact hadd (hadd hq)
    | .remove (.str w) =>
      simp only [radSpec] at hp' ⊢
      split
      · exact hq
      · rename_i h
        rw [if_neg h] at hp'
        rw [List.mem_filter] at hp' ⊢
        exact ⟨hq, reaches_prefix hp'.2 hqp⟩
    | .clear => exact absurd (hb.subset (by simp)) hc

private def lit (s : String) : StrArg := .str s.toList

/-- what the generator gives, as strings -/
private def given (l : List (TreeStep Word)) : List String := (TreeStep.values l).map String.ofList

/-- over car, cast: cart is inserted while the node above its t is still to come; car stops being a word, or cab is inserted too late -/
example : given (trIterates false [.insert (lit "car"), .insert (lit "cast")]
      [.next, .call (.insert (lit "cart")), .next, .next, .next, .call (.remove (lit "car")), .next, .next, .next]) =
    ["c", "a", "r", "s", "t", "t"] ∧
    given (trIterates true [.insert (lit "car"), .insert (lit "cast")]
      [.next, .call (.insert (lit "cart")), .next, .call (.insert (lit "cab")), .next, .next, .next]) =
    ["ca", "r", "st", "t"] := by decide +kernel

/-- **C115.**  Not only what is in the trie comes: a removed word still does, and after `clear` the generator goes on as if
nothing had happened. -/
theorem C115_removed_comes :
    given (trIterates false [.insert (lit "a"), .insert (lit "b")] [.next, .call (.remove (lit "b")), .next, .next]) =
      ["a", "b"] ∧
    given (trIterates false [.insert (lit "ab"), .insert (lit "b")]
      [.next, .call .clear, .call (.insert (lit "xyz")), .next, .next, .next]) = ["a", "b", "b"] := by decide +kernel

/-- **C115.**  Not everything in the trie comes: a word whose first character is new does not, once the first value has
been given; in a `RadixTrie` a node that is split may come shortened, without the node put above it. -/
theorem C115_new_missed :
    given (trIterates false [.insert (lit "a")] [.next, .call (.insert (lit "b")), .next, .next]) = ["a"] ∧
    (trSpecs [.insert (lit "a"), .insert (lit "b")] []).2 = ["a".toList, "b".toList] ∧
    given (trIterates true [.insert (lit "a"), .insert (lit "bcd")]
      [.next, .call (.insert (lit "bx")), .next, .next]) = ["a", "cd"] := by decide +kernel

end Extra
