import Verif.Props.Radix
import Mathlib.Algebra.BigOperators.Group.List.Basic

/-!
# C123: the sizes of tries

The text at the top of radix_trie.py (lines 28-33) says that a radix trie has fewer nodes than a trie, and that their number is proportional to the number of
strings and not to their total length.  Full statement: after every history the number of nodes of a `RadixTrie` is at most
that of a `Trie` with the same calls, and at most twice the number of its words (if there are any).  The second half is
false, because `remove` does not join nodes: `C123_unbounded`; without `remove` it is `C64_bound`.
-/

namespace Extra

theorem prefixes_length (S : List Word) : (prefixesOf S).length ≤ (S.map List.length).sum := by
  have h1 : (prefixesOf S).Nodup := (List.nodup_dedup _).filter _
  have h2 : prefixesOf S ⊆ S.flatMap (fun w => w.inits.tail) := by
    intro p hp
    obtain ⟨hne, w, hw, hpw⟩ := mem_prefixesOf.1 hp
    refine List.mem_flatMap.2 ⟨w, hw, ?_⟩
    have hm := (List.mem_inits _ _).2 hpw
    cases w with
    | nil => exact absurd (List.prefix_nil.1 hpw) hne
    | cons c w =>
      rw [List.inits_cons] at hm ⊢
      rcases List.mem_cons.1 hm with rfl | hm
      · exact absurd rfl hne
      · exact hm
  have h3 := (List.subperm_of_subset h1 h2).length_le
  refine h3.trans (le_of_eq ?_)
  rw [List.length_flatMap]
  congr 1
  exact List.map_congr_left fun w _ => by simp

/-- **C123, tries.** A trie has at most one node more than its words have characters. -/
theorem C123_trie (ops : List TrOp) :
    (trAfter ops).count ≤ 1 + ((trSpecs ops []).2.map List.length).sum := by
  rw [(C59_len ops).1]
  have := prefixes_length (trSpecs ops []).2
  omega

/-- **C123, radix tries and tries.** After the same calls a radix trie has at most as many nodes as a trie. -/
theorem C123_radix_le (ops : List TrOp) (h : NoBrace ops) : (radAfter ops).count ≤ (trAfter ops).count := by
  have I := radAfter_inv ops
  have hw : (radState ops).words = (trSpecs ops []).2 := radWords ops h _
  rw [(C64_len ops).1, (C59_len ops).1]
  have hsub : (radState ops).nodes ⊆ [] :: prefixesOf (trSpecs ops []).2 := by
    intro q hq
    have hr := I.cover q hq
    by_cases hn : q = []
    · rw [hn]; exact List.mem_cons_self
    · refine List.mem_cons_of_mem _ (mem_prefixesOf.2 ⟨hn, ?_⟩)
      rw [hw] at hr
      simpa [reaches, hn] using hr
  have := (List.subperm_of_subset I.nnodup hsub).length_le
  simp only [List.length_cons] at this
  omega

/-- the number of calls of `insert` -/
def insertCalls (ops : List TrOp) : Nat := ops.countP fun | .insert _ => true | _ => false

theorem nodes_le_inserts (ops : List TrOp) (st : RadixState) :
    (radSpecs ops st).2.nodes.length ≤ max 1 st.nodes.length + 2 * insertCalls ops := by
  induction ops generalizing st with
  | nil => simp [radSpecs, insertCalls]; omega
  | cons op ops ih =>
    have hle : ∀ (S : List Word) (w : Word), (addNew S w).length ≤ S.length + 1 := by
      intro S w
      rw [length_addNew]
      split <;> omega
    have step : (radSpec st op).2.nodes.length ≤ max 1 st.nodes.length + 2 * insertCalls [op] := by
      cases op with
      | insert x =>
        cases x with
        | none => simp [radSpec, insertCalls]; try omega
        | other => simp [radSpec, insertCalls]; try omega
        | str w =>
          simp only [radSpec, insertCalls, List.countP_cons, List.countP_nil]
          split
          · simp; omega
          · split
            · simp; omega
            · have h1 := hle (addNew st.nodes (longestRead st.nodes w w.length)) w
              have h2 := hle st.nodes (longestRead st.nodes w w.length)
              simp only [if_true]
              omega
      | remove x =>
        cases x with
        | none => simp [radSpec, insertCalls]; try omega
        | other => simp [radSpec, insertCalls]; try omega
        | str w =>
          simp only [radSpec]
          split
          · simp; omega
          · have := List.length_filter_le (reaches (st.words.erase w)) st.nodes
            simp only
            omega
      | contains x => cases x <;> simp [radSpec, insertCalls] <;> omega
      | hasPrefix x => cases x <;> simp [radSpec, insertCalls] <;> omega
      | len => simp [radSpec, insertCalls]; try omega
      | isEmpty => simp [radSpec, insertCalls]; try omega
      | clear => simp [radSpec, insertCalls]; try omega
    have hi : insertCalls (op :: ops) = insertCalls [op] + insertCalls ops := by
      simp only [insertCalls, List.countP_cons, List.countP_nil]
      omega
    simp only [radSpecs]
    have := ih (radSpec st op).2
    omega

/-- **C123, radix tries.** A radix trie has at most one node more than twice as many as there have been calls of
`insert`, however long the words are. -/
theorem C123_radix_inserts (ops : List TrOp) : (radAfter ops).count ≤ 1 + 2 * insertCalls ops := by
  rw [(C64_len ops).1]
  have := nodes_le_inserts ops ⟨[], [[]]⟩
  simp only [radState, List.length_singleton] at this ⊢
  omega

/-- insert `a`, `aa`, … up to `n` characters, then remove all but the last -/
def growAndCut (n : Nat) : List TrOp :=
  (List.range n).map (fun i => .insert (.str (List.replicate (i + 1) 'a'))) ++
    (List.range (n - 1)).map (fun i => .remove (.str (List.replicate (i + 1) 'a')))

/-- `n + 1` times `a` -/
private def as (n : Nat) : Word := List.replicate (n + 1) 'a'

theorem radSpecs_two (xs ys : List TrOp) (st : RadixState) :
    (radSpecs (xs ++ ys) st).2 = (radSpecs ys (radSpecs xs st).2).2 := by
  induction xs generalizing st with
  | nil => rfl
  | cons x xs ih =>
    simp only [List.cons_append, radSpecs]
    exact ih _

private theorem as_brace (n : Nat) : '}' ∉ as n := by
  intro h
  exact absurd (List.eq_of_mem_replicate h) (by decide)

private theorem as_prefix {m n : Nat} : as m <+: as n ↔ m ≤ n := by
  constructor
  · intro h
    have := h.length_le
    simp only [as, List.length_replicate] at this
    omega
  · intro h
    exact ⟨List.replicate (n - m) 'a', by simp only [as]; rw [List.replicate_append_replicate]; congr 1; omega⟩

private theorem as_inj {m n : Nat} (h : as m = as n) : m = n := by
  have := congrArg List.length h
  simpa [as] using this

private theorem grown (n : Nat) :
    (radSpecs ((List.range n).map (fun i => .insert (.str (as i)))) ⟨[], [[]]⟩).2 =
      ⟨(List.range n).map as, [] :: (List.range n).map as⟩ := by
  induction n with
  | zero => rfl
  | succ n ih =>
    rw [List.range_succ, List.map_append, radSpecs_two, ih]
    have hb : blank (as n) = false := by
      have : pySpace 'a' = false := by decide
      simp [blank, as, List.replicate_succ, this]
    have hn : as n ∉ (List.range n).map as := by
      intro h
      obtain ⟨m, hm, e⟩ := List.mem_map.1 h
      have := as_inj e
      rw [List.mem_range] at hm
      omega
    have hr : ∀ k, k ≤ n → longestRead ([] :: (List.range n).map as) (as n) k = List.replicate k 'a' := by
      intro k hk
      cases k with
      | zero => rfl
      | succ k =>
        have ht : (as n).take (k + 1) = as k := by simp [as]; omega
        rw [longestRead, ht, if_pos]
        · rfl
        · rw [readable_iff]
          exact ⟨as k, List.mem_cons_of_mem _ (List.mem_map.2 ⟨k, List.mem_range.2 (by omega), rfl⟩), List.prefix_rfl⟩
    have hl : longestRead ([] :: (List.range n).map as) (as n) (as n).length = List.replicate n 'a' := by
      have e : (as n).length = n + 1 := by simp [as]
      rw [e, longestRead, if_neg, hr n le_rfl]
      rw [readable_iff]
      rintro ⟨q, hq, hp⟩
      rw [show (as n).take (n + 1) = as n by simp [as]] at hp
      rcases List.mem_cons.1 hq with rfl | hq
      · simp [as] at hp
      · obtain ⟨m, hm, rfl⟩ := List.mem_map.1 hq
        have := as_prefix.1 hp
        rw [List.mem_range] at hm
        omega
    have hin : List.replicate n 'a' ∈ [] :: (List.range n).map as := by
      cases n with
      | zero => exact List.mem_cons_self
      | succ n => exact List.mem_cons_of_mem _ (List.mem_map.2 ⟨n, List.mem_range.2 (by omega), rfl⟩)
    have hn' : as n ∉ [] :: (List.range n).map as := by
      rw [List.mem_cons, not_or]
      exact ⟨by simp [as], hn⟩
    simp only [List.map_cons, List.map_nil, radSpecs, radSpec, hb, stray_of_not_mem (as_brace n), hl]
    simp only [addNew, hin, hn, hn', if_true, if_false, Bool.false_eq_true]
    simp

private theorem cut (n : Nat) (j : Nat) (hj : j + 1 ≤ n) :
    (radSpecs ((List.range j).map (fun i => .remove (.str (as i))))
        ⟨(List.range n).map as, [] :: (List.range n).map as⟩).2 =
      ⟨(List.range' j (n - j)).map as, [] :: (List.range n).map as⟩ := by
  induction j with
  | zero => simp [radSpecs, List.range_eq_range']
  | succ j ih =>
    rw [List.range_succ, List.map_append, radSpecs_two, ih (by omega)]
    have he : ((List.range' j (n - j)).map as).erase (as j) = (List.range' (j + 1) (n - (j + 1))).map as := by
      rw [show n - j = (n - (j + 1)) + 1 by omega, List.range'_succ, List.map_cons, List.erase_cons_head]
    have hf : ([] :: (List.range n).map as).filter (reaches ((List.range' (j + 1) (n - (j + 1))).map as)) =
        [] :: (List.range n).map as := by
      apply List.filter_eq_self.2
      intro q hq
      rw [reaches_iff]
      rcases List.mem_cons.1 hq with rfl | hq
      · exact Or.inl rfl
      · obtain ⟨m, hm, rfl⟩ := List.mem_map.1 hq
        rw [List.mem_range] at hm
        exact Or.inr ⟨as (n - 1), List.mem_map.2 ⟨n - 1, by rw [List.mem_range'_1]; omega, rfl⟩, as_prefix.2 (by omega)⟩
    simp only [List.map_cons, List.map_nil, radSpecs, radSpec, stray_of_not_mem (as_brace j), he, hf]
    rfl

/-- **C123 fails with `remove`.** For every `n` there is a history after which a radix trie has `n + 2` nodes and holds one
word. -/
theorem C123_unbounded (n : Nat) : NoBrace (growAndCut (n + 1)) ∧
    (radState (growAndCut (n + 1))).words = [List.replicate (n + 1) 'a'] ∧
    (radAfter (growAndCut (n + 1))).count = n + 2 := by
  have hs : radState (growAndCut (n + 1)) = ⟨[as n], [] :: (List.range (n + 1)).map as⟩ := by
    have h1 := grown (n + 1)
    have h2 := cut (n + 1) n le_rfl
    rw [radState, growAndCut, radSpecs_two]
    unfold as at h1 h2
    rw [h1, Nat.add_sub_cancel, h2]
    simp [as]
  refine ⟨?_, by rw [hs]; rfl, ?_⟩
  · intro op hop w hw
    rcases List.mem_append.1 hop with h | h <;> obtain ⟨i, _, rfl⟩ := List.mem_map.1 h <;> cases hw <;> exact as_brace i
  · rw [(C64_len _).1, hs]
    simp
    omega

example : (trAfter (growAndCut 3)).count = 4 ∧ (radAfter (growAndCut 3)).count = 4 := by decide +kernel

end Extra
