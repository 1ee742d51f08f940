import Verif.Trees.RadixRefine
import Verif.Props.Tries

/-!
# Properties of `RadixTrie`

C62: a set of words.  C63: `auto_complete`.  C64: the structure after inserts.

A history starts from `RadixTrie()` and goes on after exceptions.
-/

set_option linter.unusedSimpArgs false

namespace Extra

/-- the radix trie after a history -/
def radAfter (ops : List TrOp) : Trie := (trExecs true ops Trie.new).2

/-- the words held and the nodes after a history, by the specification -/
def radState (ops : List TrOp) : RadixState := (radSpecs ops ⟨[], [[]]⟩).2

private def s (x : String) : StrArg := .str x.toList

theorem radAfter_inv (ops : List TrOp) : RadixInv (radAfter ops) (radState ops) :=
  (radExecs_spec ops RadixInv.new).2

/-- words that split edges in both ways, and one that ends inside an edge -/
def radSample : List TrOp :=
  [.insert (s "romane"), .insert (s "romanus"), .insert (s "rom"), .insert (s "ruber"),
   .insert (s " "), .contains (s "roman"), .hasPrefix (s "roma"), .len, .remove (s "romanus"), .len,
   .contains (s "romane"), .remove (s "ru"), .remove .none, .insert (s "rom")]

theorem radSample_ok : NoBrace radSample := by
  intro op hop w hw
  simp only [radSample, List.mem_cons, List.not_mem_nil, or_false] at hop
  rcases hop with rfl | rfl | rfl | rfl | rfl | rfl | rfl | rfl | rfl | rfl | rfl | rfl | rfl | rfl <;>
    cases hw <;> decide

/-! ## C62 -/

/-- **C62.** The outcome of every call of every history, with any arguments, is what the held words
and the strings that end at a node determine (`radSpec`). -/
theorem C62_history (ops : List TrOp) :
    (trExecs true ops Trie.new).1 = (radSpecs ops ⟨[], [[]]⟩).1 :=
  (radExecs_spec ops RadixInv.new).1

example : (radSpecs radSample ⟨[], [[]]⟩).1 =
    [.ok .unit, .ok .unit, .ok .unit, .ok .unit, .error .valueError, .ok (.bool false),
     .ok (.bool true), .ok (.int 7), .ok .unit, .ok (.int 6), .ok (.bool true), .ok .unit, .ok .warned,
     .ok .unit] := by decide +kernel

theorem stray_of_not_mem {N : List Word} {w : Word} (h : '}' ∉ w) : strayIn N w = false := by
  cases hb : strayIn N w with
  | false => rfl
  | true =>
    obtain ⟨r, p, rfl, _⟩ := strayIn_iff.1 hb
    simp at h

theorem strayLast_of_not_mem {N : List Word} {w : Word} (h : '}' ∉ w) : strayLast N w = false := by
  cases hb : strayLast N w with
  | false => rfl
  | true =>
    obtain ⟨p, rfl, _⟩ := strayLast_iff.1 hb
    simp at h

/-- without `}` the words held are those of a `Trie` after the same history -/
theorem radWords : ∀ (ops : List TrOp), NoBrace ops → ∀ (st : RadixState),
    (radSpecs ops st).2.words = (trSpecs ops st.words).2 := by
  intro ops
  induction ops with
  | nil => intro _ st; rfl
  | cons op ops ih =>
    intro hb st
    have hb' : NoBrace ops := fun o ho => hb o (List.mem_cons_of_mem _ ho)
    have hop := hb op List.mem_cons_self
    have key : (radSpec st op).2.words = (trSpec st.words op).2 := by
      cases op with
      | insert x =>
        cases x with
        | none => rfl
        | other => rfl
        | str w =>
          simp only [radSpec, trSpec, brace_of_not_mem (hop w rfl), stray_of_not_mem (hop w rfl)]
          cases blank w <;> rfl
      | remove x =>
        cases x with
        | none => rfl
        | other => rfl
        | str w =>
          simp only [radSpec, trSpec, brace_of_not_mem (hop w rfl), stray_of_not_mem (hop w rfl),
            Bool.false_eq_true, if_false]
          by_cases e : st.words = [w]
          · rw [if_pos e, e]; simp
          · rw [if_neg e]
      | contains x => cases x <;> rfl
      | hasPrefix x => cases x <;> rfl
      | len => rfl
      | isEmpty => rfl
      | clear => rfl
    simp only [radSpecs, trSpecs]
    rw [ih hb' (radSpec st op).2, key]

/-- **C62, partial.** After a history without `}`, `w in trie` iff `w` was inserted and not removed
since; `has_prefix(p)` iff `p` is empty or some held word starts with `p`.  Missing: strings with a
`}`, for which see `C62_history` and `C62_brace`. -/
theorem C62_words_partial (ops : List TrOp) (h : NoBrace ops) (w : Word) (hw : '}' ∉ w) :
    (radAfter ops).contains (.str w) = .ok (heldAfter w ops false) ∧
      ∃ b, (radAfter ops).hasPrefix (.str w) = .ok b ∧
        (b = true ↔ w = [] ∨ ∃ x, heldAfter x ops false = true ∧ w <+: x) := by
  have I := radAfter_inv ops
  have hh : ∀ x, heldAfter x ops false = true ↔ x ∈ (radState ops).words := by
    intro x
    rw [held_spec x ops [] false List.nodup_nil h (by simp), radState, radWords ops h]
  refine ⟨?_, reaches (radState ops).words w, ?_, ?_⟩
  · rw [I.contains, stray_of_not_mem hw]
    simp only [Bool.false_eq_true, if_false, Except.ok.injEq]
    rw [Bool.eq_iff_iff, decide_eq_true_iff, hh]
  · rw [I.hasPrefix, stray_of_not_mem hw, strayLast_of_not_mem hw]; rfl
  · rw [reaches_iff]
    simp only [hh]

example : NoBrace radSample ∧ heldAfter "romane".toList radSample false = true ∧
    heldAfter "romanus".toList radSample false = false := ⟨radSample_ok, by decide, by decide⟩

/-- **C62, no exceptions, partial.** `in`, `insert` and `remove` of a word with a visible character
and without `}` do not raise, but for the removal of the last word.  Missing: words with a `}`. -/
theorem C62_no_raise_partial (ops : List TrOp) {w : Word} (hw : '}' ∉ w) (hb : blank w = false) :
    (∃ b, (trExec true (radAfter ops) (.contains (.str w))).1 = .ok (.bool b)) ∧
      (trExec true (radAfter ops) (.insert (.str w))).1 = .ok .unit ∧
      ((radState ops).words ≠ [w] →
        (trExec true (radAfter ops) (.remove (.str w))).1 = .ok .unit) := by
  have I := radAfter_inv ops
  have hbr := stray_of_not_mem (N := (radState ops).nodes) hw
  refine ⟨?_, ?_, fun hS => ?_⟩
  · rw [(radExec_step I _).1]; simp [radSpec, hbr]
  · rw [(radExec_step I _).1]; simp [radSpec, hbr, hb]
  · rw [(radExec_step I _).1]; simp [radSpec, hbr, hS]

/-- **C62 fails for `}`**: whether a string with a `}` can be looked up depends on where the nodes
end. -/
theorem C62_brace :
    (trExecs true [.hasPrefix (s "}"), .insert (s "ab"), .contains (s "a}"), .insert (s "ac"),
      .contains (s "a}"), .insert (s "a}"), .hasPrefix (s "a}")] Trie.new).1 =
    [.ok (.bool true), .ok .unit, .ok (.bool false), .ok .unit, .error .attributeError,
     .error .attributeError, .ok (.bool true)] := by decide +kernel

/-- **C62 fails for the last word**: its removal raises `AttributeError`, whatever the word, though
the trie is empty afterwards. -/
theorem C62_last_word (ops : List TrOp) (w : Word) (h : (radState ops).words = [w]) :
    (trExec true (radAfter ops) (.remove (.str w))).1 = .error .attributeError ∧
      (trExec true (radAfter ops) (.remove (.str w))).2.isEmpty = true := by
  have I := radAfter_inv ops
  have hst : strayIn (radState ops).nodes w = false := by
    cases hb : strayIn (radState ops).nodes w with
    | false => rfl
    | true =>
      obtain ⟨r, p, hw, _, h3⟩ := strayIn_iff.1 hb
      exact absurd (readable_iff.2 ⟨w, I.word_node (by rw [h]; simp), r, by rw [hw]; simp⟩) h3
  obtain ⟨h1, h2⟩ := radExec_step I (.remove (.str w))
  refine ⟨?_, ?_⟩
  · rw [h1]; simp [radSpec, hst, h]
  · rw [h2.empty]; simp [radSpec, hst, h]

example : (radState [.insert (s "ab"), .insert (s "ac"), .remove (s "ac")]).words = ["ab".toList] := by
  decide +kernel

/-! ## C63 -/

/-- **C63.** After any history, for a prefix that does not meet an unexpected `}` at a node (in
particular any prefix without a `}`, see `C63_no_brace`), `auto_complete` lists without duplicates
exactly the held words that start with it. -/
theorem C63_auto_complete (ops : List TrOp) (p : Word) (hp : strayIn (radState ops).nodes p = false) :
    ∃ xs, (radAfter ops).radixComplete (.str p) = .ok xs ∧ xs.Nodup ∧
      ∀ x, x ∈ xs ↔ p <+: x ∧ x ∈ (radState ops).words := by
  have I := radAfter_inv ops
  have hnot : ¬ ∃ r, Lost (radAfter ops).root p r := by
    intro h
    rw [I.stray.2 h] at hp; cases hp
  obtain ⟨q, v, r, e, rfl, hr, st⟩ := follow_not_lost I.ok hnot
  have hv := hr.ok I.ok
  cases r with
  | nil =>
    rw [List.append_nil] at *
    refine ⟨v.candidates q, by simp [Trie.radixComplete, validWord, e],
      TNode.candidates_nodup hv q, fun x => ?_⟩
    rw [TNode.mem_candidates I.ok hr, I.words]
  | cons c r =>
    have hval : validWord true (.str (q ++ c :: r)) = .ok (q ++ c :: r) := by simp [validWord]
    by_cases hin : ∃ u, v.kids.child c = some u ∧ c :: r <+: u.data
    · obtain ⟨u, hu, hpre⟩ := hin
      obtain ⟨hu1, hu2⟩ := hv.child hu
      have hcd : v.childData c = u.data := by simp [TNode.childData, hu]
      have hru := hr.trans (.child hu)
      refine ⟨u.candidates (q ++ u.data), ?_, TNode.candidates_nodup hu2 _, fun x => ?_⟩
      · simp only [Trie.radixComplete, hval, e, hcd, hu]
        have h1 : ¬ ((c :: r).length > u.data.length ∨ u.data.take (c :: r).length ≠ c :: r) := by
          rintro (h | h)
          · have := hpre.length_le; omega
          · exact h (List.prefix_iff_eq_take.1 hpre).symm
        rw [if_neg h1]
        have h2 : (q ++ c :: r).take ((q ++ c :: r).length - (c :: r).length) = q := by
          rw [List.length_append, Nat.add_sub_cancel, List.take_left]
        rw [h2]
      · rw [TNode.mem_candidates I.ok hru, I.words]
        constructor
        · rintro ⟨h1, h2⟩
          exact ⟨((List.prefix_append_right_inj q).2 hpre).trans h1, h2⟩
        · rintro ⟨⟨y, rfl⟩, h2⟩
          refine ⟨?_, h2⟩
          have h3 := (I.words _).2 h2
          rw [List.append_assoc, hr.strs I.ok, List.cons_append] at h3
          obtain ⟨u', q', hu', e', _⟩ := (TNode.strs_cons hv).1 h3
          rw [hu] at hu'
          cases hu'
          rw [List.append_assoc, List.cons_append, e', List.prefix_append_right_inj]
          exact ⟨q', rfl⟩
    · refine ⟨[], ?_, List.nodup_nil, fun x => ?_⟩
      · simp only [Trie.radixComplete, hval, e]
        rw [if_pos]
        by_contra hno
        rw [not_or, not_lt, not_not] at hno
        apply hin
        cases hc : v.kids.child c with
        | none => simp [TNode.childData, hc] at hno
        | some u =>
          simp only [TNode.childData, hc] at hno
          exact ⟨u, rfl, by rw [← hno.2]; exact List.take_prefix _ _⟩
      · simp only [List.not_mem_nil, false_iff, not_and]
        rintro ⟨y, rfl⟩ hx
        have h3 := (I.words _).2 hx
        rw [List.append_assoc, hr.strs I.ok] at h3
        exact hin (st.prefix hv h3 ⟨y, rfl⟩)

/-- **C63 for prefixes without `}`**. -/
theorem C63_no_brace (ops : List TrOp) (h : NoBrace ops) (p : Word) (hp : '}' ∉ p) :
    ∃ xs, (radAfter ops).radixComplete (.str p) = .ok xs ∧ xs.Nodup ∧
      ∀ x, x ∈ xs ↔ p <+: x ∧ heldAfter x ops false = true := by
  obtain ⟨xs, h1, h2, h3⟩ := C63_auto_complete ops p (stray_of_not_mem hp)
  refine ⟨xs, h1, h2, fun x => ?_⟩
  rw [h3, held_spec x ops [] false List.nodup_nil h (by simp), radState, radWords ops h]

/-- a prefix that ends inside an edge label, and one that ends at a node -/
example : (radAfter radSample).radixComplete (s "roma") = .ok ["romane".toList] ∧
    (radAfter radSample).radixComplete (s "rom") = .ok ["rom".toList, "romane".toList] := by
  decide +kernel

/-- **C63, arguments that are not strings.** -/
theorem C63_refused (t : Trie) : t.radixComplete .none = .error .valueError ∧
    t.radixComplete .other = .error .typeError := ⟨rfl, rfl⟩

/-! ## C64 -/

/-- **C64, labels.** After any history, below every node the labels of the children are not empty and
start with different characters. -/
theorem C64_labels (ops : List TrOp) {p : Word} {v : TNode} (h : NodeAt (radAfter ops).root p v) :
    (∀ u ∈ v.kids.toList, u.data ≠ []) ∧ (v.kids.toList.map (fun u => u.data.head?)).Nodup := by
  have hv := h.ok (radAfter_inv ops).ok
  generalize v.kids = ks at hv
  clear h
  have key : ∀ (ks : Kids) (c : Char), ks.Ok → ks.child c = none →
      some c ∉ ks.toList.map (fun u => u.data.head?) := by
    intro ks
    induction ks with
    | nil => intro c _ _; simp [Kids.toList]
    | cons k d b sub rest _ ih =>
      intro c ho hc
      obtain ⟨h1, h2, h3, h4⟩ := ho
      rw [Kids.child] at hc
      by_cases e : k = c
      · rw [if_pos e] at hc; cases hc
      · rw [if_neg e] at hc
        simp only [Kids.toList, List.map_cons, List.mem_cons, not_or]
        refine ⟨?_, ih c h4 hc⟩
        rw [h1]
        intro h
        cases h
        exact e rfl
  induction ks with
  | nil => simp [Kids.toList]
  | cons k d b sub rest _ ih =>
    obtain ⟨h1, h2, h3, h4⟩ := hv
    obtain ⟨i1, i2⟩ := ih h4
    refine ⟨?_, ?_⟩
    · intro u hu
      rw [Kids.toList, List.mem_cons] at hu
      rcases hu with rfl | hu
      · exact data_ne h1
      · exact i1 u hu
    · rw [Kids.toList, List.map_cons, List.nodup_cons]
      refine ⟨?_, i2⟩
      simp only
      rw [h1]
      exact key rest k h4 h2

/-- **C64, `len`.** After any history `len` is the number of strings that end at a node, each
counted once. -/
theorem C64_len (ops : List TrOp) : (radAfter ops).count = (radState ops).nodes.length ∧
    (radState ops).nodes.Nodup ∧
    ∀ q, q ∈ (radState ops).nodes ↔ ∃ v, NodeAt (radAfter ops).root q v := by
  have I := radAfter_inv ops
  refine ⟨by rw [I.count, I.size], I.nnodup, fun q => ?_⟩
  rw [← I.nodes]
  constructor
  · rintro ⟨b, h⟩
    obtain ⟨v, h, _⟩ := (mem_strs I.ok).1 h
    exact ⟨v, h⟩
  · rintro ⟨v, h⟩
    exact ⟨v.word, (mem_strs I.ok).2 ⟨v, h, rfl⟩⟩

/-- the history has no call of `remove` -/
def NoRemove (ops : List TrOp) : Prop := ∀ op ∈ ops, ∀ x, op ≠ .remove x

/-- nodes without a word branch, and there are not many nodes -/
def Compact (st : RadixState) : Prop :=
  (∀ q ∈ st.nodes, q ≠ [] → q ∈ st.words ∨
    ∃ a b x y, a ≠ b ∧ q ++ a :: x ∈ st.nodes ∧ q ++ b :: y ∈ st.nodes) ∧
  (st.nodes.length ≤ 2 * st.words.length ∨ (st.words = [] ∧ st.nodes = [[]]))

theorem length_addNew (S : List Word) (w : Word) :
    (addNew S w).length = if w ∈ S then S.length else S.length + 1 := by
  unfold addNew
  by_cases h : w ∈ S
  · simp [h]
  · simp [h]

theorem Compact.step {t : Trie} {st : RadixState} (I : RadixInv t st) (h : Compact st) (op : TrOp)
    (hop : ∀ x, op ≠ .remove x) : Compact (radSpec st op).2 := by
  cases op with
  | remove x => exact absurd rfl (hop x)
  | contains x => cases x <;> exact h
  | hasPrefix x => cases x <;> exact h
  | len => exact h
  | isEmpty => exact h
  | clear => exact ⟨by simp [radSpec], Or.inr ⟨rfl, rfl⟩⟩
  | insert x =>
    cases x with
    | none => exact h
    | other => exact h
    | str w =>
      simp only [radSpec]
      cases hw : blank w with
      | true => exact h
      | false =>
        cases hs : strayIn st.nodes w with
        | true => exact h
        | false =>
          simp only [Bool.false_eq_true, if_false]
          obtain ⟨l1, l2, l3⟩ := longestRead_spec I.root w w.length
          generalize longestRead st.nodes w w.length = m at l1 l2 l3
          refine ⟨?_, ?_⟩
          · intro q hq hne
            simp only [mem_addNew] at hq ⊢
            rcases hq with rfl | rfl | hq
            · exact Or.inl (Or.inl rfl)
            · by_cases hmw : q = w
              · exact Or.inl (Or.inl hmw)
              · by_cases hmn : q ∈ st.nodes
                · rcases h.1 q hmn hne with h1 | ⟨a, b, x, y, h1, h2, h3⟩
                  · exact Or.inl (Or.inr h1)
                  · exact Or.inr ⟨a, b, x, y, h1, Or.inr (Or.inr h2), Or.inr (Or.inr h3)⟩
                · obtain ⟨n, hn, z, rfl⟩ := readable_iff.1 l2
                  obtain ⟨z', rfl⟩ := l1
                  cases z with
                  | nil => rw [List.append_nil] at hn; exact absurd hn hmn
                  | cons a z =>
                    cases z' with
                    | nil => exact absurd (List.append_nil q).symm hmw
                    | cons b z' =>
                      refine Or.inr ⟨a, b, z, z', ?_, Or.inr (Or.inr hn), Or.inl rfl⟩
                      rintro rfl
                      have := l3 (q ++ [a]) (by simp) (by simp) (readable_iff.2 ⟨_, hn, by simp⟩)
                      have := this.length_le
                      rw [List.length_append, List.length_singleton] at this
                      omega
            · rcases h.1 q hq hne with h1 | ⟨a, b, x, y, h1, h2, h3⟩
              · exact Or.inl (Or.inr h1)
              · exact Or.inr ⟨a, b, x, y, h1, Or.inr (Or.inr h2), Or.inr (Or.inr h3)⟩
          · left
            have hle : ∀ (S : List Word) (x : Word), (addNew S x).length ≤ S.length + 1 := by
              intro S x
              rw [length_addNew]
              split <;> omega
            by_cases hin : w ∈ st.words
            · have hwn := I.word_node hin
              have hmw : m = w := l1.eq_of_length_le
                (l3 w (List.prefix_refl _) (le_refl _) (readable_iff.2 ⟨w, hwn, List.prefix_refl _⟩)).length_le
              subst hmw
              have e1 : addNew st.nodes m = st.nodes := if_pos hwn
              have e2 : addNew st.words m = st.words := if_pos hin
              rw [e1, e1, e2]
              rcases h.2 with h2 | ⟨h2, _⟩
              · exact h2
              · rw [h2] at hin; cases hin
            · have e2 : (addNew st.words w).length = st.words.length + 1 := by
                rw [length_addNew, if_neg hin]
              simp only [e2]
              rcases h.2 with h2 | ⟨h2, h3⟩
              · have := hle (addNew st.nodes m) w
                have := hle st.nodes m
                omega
              · have hm : m ∈ st.nodes := by
                  obtain ⟨n, hn, hp⟩ := readable_iff.1 l2
                  rw [h3, List.mem_singleton] at hn ⊢
                  subst hn
                  exact List.prefix_nil.1 hp
                have e1 : addNew st.nodes m = st.nodes := if_pos hm
                rw [e1]
                have := hle st.nodes w
                rw [h2, h3] at *
                simpa using this

theorem compactAfter : ∀ (ops : List TrOp), NoRemove ops → ∀ {t : Trie} {st : RadixState},
    RadixInv t st → Compact st → Compact (radSpecs ops st).2 := by
  intro ops
  induction ops with
  | nil => intro _ t st _ h; exact h
  | cons op ops ih =>
    intro hno t st I h
    have h1 := h.step I op (hno op List.mem_cons_self)
    simp only [radSpecs]
    exact ih (fun o ho => hno o (List.mem_cons_of_mem _ ho)) (radExec_step I op).2 h1

/-- **C64, branching.** After any history without `remove`, every node but the root that does not end
a word has two children. -/
theorem C64_branching (ops : List TrOp) (h : NoRemove ops) {p : Word} {v : TNode}
    (hv : NodeAt (radAfter ops).root p v) (hp : p ≠ []) (hw : v.word = false) :
    ∃ a b, a ≠ b ∧ (v.kids.child a).isSome ∧ (v.kids.child b).isSome := by
  have I := radAfter_inv ops
  have C := compactAfter ops h RadixInv.new ⟨by simp, Or.inr ⟨rfl, rfl⟩⟩
  have hpv : (p, v.word) ∈ (radAfter ops).root.strs := (mem_strs I.ok).2 ⟨v, hv, rfl⟩
  have kid : ∀ c x, p ++ c :: x ∈ (radState ops).nodes → (v.kids.child c).isSome := by
    intro c x hx
    obtain ⟨b, hb⟩ := (I.nodes _).2 hx
    rw [hv.strs I.ok] at hb
    obtain ⟨u, _, hu, _⟩ := (TNode.strs_cons (hv.ok I.ok)).1 hb
    rw [hu]; rfl
  rcases C.1 p ((I.nodes p).1 ⟨_, hpv⟩) hp with h1 | ⟨a, b, x, y, hab, h2, h3⟩
  · exfalso
    have h2 := (I.words p).2 h1
    obtain ⟨v', hv', e⟩ := (mem_strs I.ok).1 h2
    rw [hv.unique I.ok hv'] at hw
    rw [hw] at e; cases e
  · exact ⟨a, b, hab, kid a x h2, kid b y h3⟩

/-- **C64, size.** After a history without `remove` that left some word, `len` is at most twice the
number of words. -/
theorem C64_bound (ops : List TrOp) (h : NoRemove ops) (hne : (radState ops).words ≠ []) :
    (radAfter ops).count ≤ 2 * (radState ops).words.length := by
  have C := compactAfter ops h RadixInv.new ⟨by simp, Or.inr ⟨rfl, rfl⟩⟩
  rw [(C64_len ops).1]
  rcases C.2 with h1 | ⟨h1, _⟩
  · have : (radState ops).nodes.length ≤ 2 * (radState ops).words.length := h1
    omega
  · exact absurd h1 hne

/-- four words and three branching nodes besides the root -/
example : NoRemove (radSample.take 7) ∧ (radAfter (radSample.take 7)).count = 7 ∧
    (radState (radSample.take 7)).words.length = 4 := by
  refine ⟨?_, by decide +kernel, by decide +kernel⟩
  intro op hop x
  simp only [radSample, List.take, List.mem_cons, List.not_mem_nil, or_false] at hop
  rcases hop with rfl | rfl | rfl | rfl | rfl | rfl | rfl <;> simp

/-- **`remove` does not join nodes**: after it a node without a word may have one child. -/
theorem C64_remove :
    ∃ v u, NodeAt (radAfter [.insert (s "ab"), .insert (s "ac"), .remove (s "ac")]).root "a".toList v ∧
      v.word = false ∧ v.kids.toList = [u] := by
  exact ⟨⟨['a'], false, .cons 'b' ['b'] true .nil .nil⟩, ⟨['b'], true, .nil⟩,
    .step (c := 'a') (u := ⟨['a'], false, .cons 'b' ['b'] true .nil .nil⟩) rfl (.here _), rfl, rfl⟩

end Extra
