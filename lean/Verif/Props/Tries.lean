import Verif.Trees.TrieRefine
import Batteries.Lean.Except

/-!
# Properties of `Trie`

C57: a set of words.  C58: `auto_complete`.  C59: the number of nodes.  C60: which words raise.
C61: removing the last word.

A history starts from `Trie()` and goes on after exceptions.
-/

set_option linter.unusedSimpArgs false

namespace Extra

/-- the trie after a history -/
def trAfter (ops : List TrOp) : Trie := (trExecs false ops Trie.new).2

/-- a string argument -/
def TrOp.word? : TrOp → Option Word
  | .insert (.str w) => some w
  | .remove (.str w) => some w
  | .contains (.str w) => some w
  | .hasPrefix (.str w) => some w
  | _ => none

/-- no call of the history is given a string with a `}` -/
def NoBrace (ops : List TrOp) : Prop := ∀ op ∈ ops, ∀ w, op.word? = some w → '}' ∉ w

/-- is the word held after the history, given whether it was before: the last `insert` or `remove`
of it, or `clear`, decides -/
def heldAfter (w : Word) : List TrOp → Bool → Bool
  | [], b => b
  | .insert x :: ops, b => heldAfter w ops (if x = .str w ∧ blank w = false then true else b)
  | .remove x :: ops, b => heldAfter w ops (if x = .str w then false else b)
  | .clear :: ops, _ => heldAfter w ops false
  | .contains _ :: ops, b => heldAfter w ops b
  | .hasPrefix _ :: ops, b => heldAfter w ops b
  | .len :: ops, b => heldAfter w ops b
  | .isEmpty :: ops, b => heldAfter w ops b

private def s (x : String) : StrArg := .str x.toList

/-- a history with shared prefixes, removals, refused arguments and a word used twice -/
def trSample : List TrOp :=
  [.insert (s "car"), .insert (s "card"), .insert (s "cat"), .insert (s "dog"), .insert (s "  "),
   .insert .none, .remove (s "car"), .remove (s "ca"), .remove .other, .insert (s "dog"),
   .contains (s "car"), .contains (s "card"), .hasPrefix (s "car"), .remove (s "dog"),
   .contains (s "dog"), .len]

theorem trSample_ok : NoBrace trSample := by
  intro op hop w hw
  simp only [trSample, List.mem_cons, List.not_mem_nil, or_false] at hop
  rcases hop with rfl | rfl | rfl | rfl | rfl | rfl | rfl | rfl | rfl | rfl | rfl | rfl | rfl | rfl |
    rfl | rfl <;> cases hw <;> decide

/-! ## C57 -/

/-- **C57.** The outcome of every call of every history, with any arguments, is what the list of the
held words determines (`trSpec`). -/
theorem C57_history (ops : List TrOp) : (trExecs false ops Trie.new).1 = (trSpecs ops []).1 :=
  (trExecs_spec ops TrieInv.new).1

example : (trSpecs trSample []).1 =
    [.ok .unit, .ok .unit, .ok .unit, .ok .unit, .error .valueError, .error .valueError, .ok .unit,
     .ok .unit, .ok .warned, .ok .unit, .ok (.bool false), .ok (.bool true), .ok (.bool true),
     .ok .unit, .ok (.bool false), .ok (.int 6)] := by decide +kernel

theorem trAfter_inv (ops : List TrOp) : TrieInv (trAfter ops) (trSpecs ops []).2 :=
  (trExecs_spec ops TrieInv.new).2

theorem brace_of_not_mem {S : List Word} {w : Word} (h : '}' ∉ w) : braceIn S w = false := by
  cases hb : braceIn S w with
  | false => rfl
  | true =>
    obtain ⟨r, p, rfl, _⟩ := braceIn_iff.1 hb
    simp at h

theorem braceLast_of_not_mem {S : List Word} {w : Word} (h : '}' ∉ w) : braceLast S w = false := by
  cases hb : braceLast S w with
  | false => rfl
  | true =>
    obtain ⟨p, rfl, _⟩ := braceLast_iff.1 hb
    simp at h

theorem held_spec (w : Word) : ∀ (ops : List TrOp) (S : List Word) (b : Bool), S.Nodup → NoBrace ops →
    (b = true ↔ w ∈ S) → (heldAfter w ops b = true ↔ w ∈ (trSpecs ops S).2) := by
  intro ops
  induction ops with
  | nil => intro S b _ _ h; exact h
  | cons op ops ih =>
    intro S b hS hb h
    have hb' : NoBrace ops := fun o ho => hb o (List.mem_cons_of_mem _ ho)
    have hop := hb op List.mem_cons_self
    have same : ∀ {b'}, b' = b → (trSpec S op).2 = S →
        (heldAfter w ops b' = true ↔ w ∈ (trSpecs (op :: ops) S).2) := by
      intro b' e1 e2
      rw [e1, ih S b hS hb' h]
      simp only [trSpecs, e2]
    cases op with
    | insert x =>
      cases x with
      | none => exact same (if_neg (by simp)) rfl
      | other => exact same (if_neg (by simp)) rfl
      | str v =>
        have hv := brace_of_not_mem (S := S) (hop v rfl)
        cases hbl : blank v with
        | true =>
          refine same (if_neg ?_) (by simp [trSpec, hbl])
          rintro ⟨e, h⟩; cases e; rw [hbl] at h; cases h
        | false =>
          have hst : (trSpec S (.insert (.str v))).2 = if v ∈ S then S else S ++ [v] := by
            simp [trSpec, hbl, hv]
          simp only [trSpecs, heldAfter]
          rw [hst]
          apply ih _ _ _ hb'
          · by_cases e : v = w
            · subst e
              rw [if_pos ⟨rfl, hbl⟩]
              by_cases hin : v ∈ S
              · simp [hin]
              · simp [hin]
            · have e' : w ≠ v := fun h => e h.symm
              rw [if_neg (by simp [e]), h]
              by_cases hin : v ∈ S
              · simp [hin]
              · simp [hin, e']
          · by_cases hin : v ∈ S
            · rw [if_pos hin]; exact hS
            · rw [if_neg hin, List.nodup_append]
              refine ⟨hS, by simp, ?_⟩
              intro a ha b hb
              rw [List.mem_singleton] at hb
              rintro rfl
              exact hin (hb ▸ ha)
    | remove x =>
      cases x with
      | none => exact same (if_neg (by simp)) rfl
      | other => exact same (if_neg (by simp)) rfl
      | str v =>
        have hv := brace_of_not_mem (S := S) (hop v rfl)
        have hst : (trSpec S (.remove (.str v))).2 = S.erase v := by
          simp only [trSpec, hv, Bool.false_eq_true, if_false]
          by_cases e : S = [v]
          · rw [if_pos e, e]; simp
          · rw [if_neg e]
        simp only [trSpecs, heldAfter]
        rw [hst]
        apply ih _ _ (hS.erase v) hb'
        rw [hS.mem_erase_iff]
        by_cases e : v = w
        · subst e; simp
        · have e' : w ≠ v := fun h => e h.symm
          rw [if_neg (by simp [e]), h]
          simp [e']
    | contains x => exact same rfl (by cases x <;> rfl)
    | hasPrefix x => exact same rfl (by cases x <;> rfl)
    | len => exact same rfl rfl
    | isEmpty => exact same rfl rfl
    | clear => exact ih [] false List.nodup_nil hb' (by simp)

/-- **C57, partial.** After a history without `}`, `w in trie` iff `w` was inserted and not removed
since; `has_prefix(p)` iff `p` is empty or some held word starts with `p`.  Missing: strings with a
`}`, for which see `C57_history` and `C57_brace`. -/
theorem C57_words_partial (ops : List TrOp) (h : NoBrace ops) (w : Word) (hw : '}' ∉ w) :
    (trAfter ops).contains (.str w) = .ok (heldAfter w ops false) ∧
      ∃ b, (trAfter ops).hasPrefix (.str w) = .ok b ∧
        (b = true ↔ w = [] ∨ ∃ x, heldAfter x ops false = true ∧ w <+: x) := by
  have I := trAfter_inv ops
  have hh := fun x => held_spec x ops [] false List.nodup_nil h (by simp)
  refine ⟨?_, reaches (trSpecs ops []).2 w, ?_, ?_⟩
  · rw [I.contains, brace_of_not_mem hw]
    simp only [Bool.false_eq_true, if_false, Except.ok.injEq]
    rw [Bool.eq_iff_iff, decide_eq_true_iff, hh]
  · rw [I.hasPrefix, brace_of_not_mem hw, braceLast_of_not_mem hw]; rfl
  · rw [reaches_iff]
    simp only [hh]

example : heldAfter "card".toList trSample false = true ∧
    heldAfter "car".toList trSample false = false := by decide

/-- **C57 fails for `}`**: `has_prefix` says that an empty trie has a word starting with `}`, and
`in` raises. -/
theorem C57_brace : Trie.new.hasPrefix (s "}") = .ok true ∧
    Trie.new.contains (s "}") = .error .attributeError := by decide +kernel

/-! ## C58 -/

/-- **C58.** After any history, for a prefix that does not meet an unexpected `}` (see C60),
`auto_complete` lists without duplicates exactly the held words that start with it. -/
theorem C58_auto_complete (ops : List TrOp) (p : Word) (hp : braceIn (trSpecs ops []).2 p = false) :
    ∃ xs, (trAfter ops).autoComplete (.str p) = .ok xs ∧ xs.Nodup ∧
      ∀ x, x ∈ xs ↔ p <+: x ∧ x ∈ (trSpecs ops []).2 := by
  have I := trAfter_inv ops
  have hnot : ¬ ∃ r, Lost (trAfter ops).root p r := by
    intro h
    rw [I.brace.2 h] at hp; cases hp
  obtain ⟨q, v, r, e, rfl, hr, st⟩ := follow_not_lost I.ok hnot
  cases r with
  | nil =>
    rw [List.append_nil] at *
    refine ⟨v.candidates q, by simp [Trie.autoComplete, validWord, e],
      TNode.candidates_nodup (hr.ok I.ok) q, fun x => ?_⟩
    rw [TNode.mem_candidates I.ok hr, I.words]
  | cons c r =>
    refine ⟨[], by simp [Trie.autoComplete, validWord, e], List.nodup_nil, fun x => ?_⟩
    simp only [List.not_mem_nil, false_iff, not_and]
    rintro ⟨y, rfl⟩ hx
    have hn : reaches (trSpecs ops []).2 (q ++ c :: r) = true :=
      reaches_iff.2 (Or.inr ⟨_, hx, y, rfl⟩)
    obtain ⟨b, hb⟩ := (I.nodes _).2 hn
    rw [hr.strs I.ok] at hb
    cases st.mem (hr.ok I.ok) hb

example : (trAfter trSample).autoComplete (s "ca") = .ok ["card".toList, "cat".toList] ∧
    braceIn (trSpecs trSample []).2 "ca".toList = false := by decide +kernel

/-- **C58, arguments that are not strings.** -/
theorem C58_refused (t : Trie) : t.autoComplete .none = .error .valueError ∧
    t.autoComplete .other = .error .typeError := ⟨rfl, rfl⟩

/-! ## C59 -/

/-- **C59.** After any history `len` is one more than the number of distinct non-empty prefixes of
the held words. -/
theorem C59_len (ops : List TrOp) :
    (trAfter ops).count = 1 + (prefixesOf (trSpecs ops []).2).length ∧
      (prefixesOf (trSpecs ops []).2).Nodup ∧
      ∀ p, p ∈ prefixesOf (trSpecs ops []).2 ↔
        p ≠ [] ∧ ∃ w ∈ (trSpecs ops []).2, p <+: w := by
  have I := trAfter_inv ops
  exact ⟨by rw [I.count, I.size]; simp, (List.nodup_dedup _).filter _, fun p => mem_prefixesOf⟩

example : (trAfter trSample).count = 6 ∧ (trSpecs trSample []).2 = ["card".toList, "cat".toList] := by
  decide +kernel

/-! ## C60 -/

/-- **C60, partial.** `in`, `insert` and `remove` of a word with a visible character and without
`}` never raise, but for the removal of the last word (C61).  Missing: words with a `}`, see
`C60_raises` and `C60_brace`. -/
theorem C60_no_brace_partial (ops : List TrOp) {w : Word} (hw : '}' ∉ w) (hb : blank w = false) :
    (∃ b, (trExec false (trAfter ops) (.contains (.str w))).1 = .ok (.bool b)) ∧
      (trExec false (trAfter ops) (.insert (.str w))).1 = .ok .unit ∧
      ((trSpecs ops []).2 ≠ [w] →
        (trExec false (trAfter ops) (.remove (.str w))).1 = .ok .unit) := by
  have I := trAfter_inv ops
  have hbr := brace_of_not_mem (S := (trSpecs ops []).2) hw
  refine ⟨?_, ?_, fun hS => ?_⟩
  · rw [(trExec_step I _).1]; simp [trSpec, hbr]
  · rw [(trExec_step I _).1]; simp [trSpec, hbr, hb]
  · rw [(trExec_step I _).1]; simp [trSpec, hbr, hS]

/-- **C60, which words raise**: exactly those that can be read up to a `}` but not past it. -/
theorem C60_raises (ops : List TrOp) (w : Word) :
    (trAfter ops).contains (.str w) = .error .attributeError ↔
      ∃ p r, w = p ++ '}' :: r ∧ reaches (trSpecs ops []).2 p = true ∧
        reaches (trSpecs ops []).2 (p ++ ['}']) = false := by
  have I := trAfter_inv ops
  rw [I.contains]
  cases hb : braceIn (trSpecs ops []).2 w with
  | true =>
    obtain ⟨r, p, h1, h2, h3⟩ := braceIn_iff.1 hb
    simp only [if_true, true_iff]
    exact ⟨p, r, h1, h2, by simpa using h3⟩
  | false =>
    simp only [Bool.false_eq_true, if_false, reduceCtorEq, false_iff]
    rintro ⟨p, r, h1, h2, h3⟩
    rw [braceIn_iff.2 ⟨r, p, h1, h2, by simp [h3]⟩] at hb
    cases hb

/-- **C60 fails for `}`.** -/
theorem C60_brace :
    (trExecs false [.insert (s "}"), .insert (s "a"), .insert (s "a}"), .insert (s "b}"),
      .contains (s "b}c"), .contains (s "a}"), .remove (s "}x")] Trie.new).1 =
    [.error .attributeError, .ok .unit, .error .attributeError, .ok .unit, .ok (.bool false),
     .error .attributeError, .error .attributeError] := by decide +kernel

/-! ## C61 -/

/-- **C61 fails**: removing the only word raises `AttributeError`, whatever the word. -/
theorem C61_raises (ops : List TrOp) (w : Word) (h : (trSpecs ops []).2 = [w]) :
    (trExec false (trAfter ops) (.remove (.str w))).1 = .error .attributeError := by
  have I := trAfter_inv ops
  rw [(trExec_step I _).1, h]
  simp only [trSpec]
  cases braceIn [w] w <;> simp

/-- **C61, partial.** The trie left behind by that exception is empty all the same.  Missing: that
the call does not raise. -/
theorem C61_empty_partial (ops : List TrOp) (w : Word) (h : (trSpecs ops []).2 = [w]) :
    (trExec false (trAfter ops) (.remove (.str w))).2.isEmpty = true ∧
      ∀ x, '}' ∉ x → (trExec false (trAfter ops) (.remove (.str w))).2.contains (.str x) = .ok false := by
  have I := trAfter_inv ops
  have I' := (trExec_step I (.remove (.str w))).2
  have hb : braceIn [w] w = false := by
    cases hb : braceIn [w] w with
    | false => rfl
    | true =>
      obtain ⟨r, p, hw, _, h3⟩ := braceIn_iff.1 hb
      exact absurd (reaches_iff.2 (Or.inr ⟨w, by simp, r, by rw [hw]; simp⟩)) h3
  have hs : (trSpec (trSpecs ops []).2 (.remove (.str w))).2 = [] := by
    rw [h]; simp [trSpec, hb]
  rw [hs] at I'
  refine ⟨?_, fun x hx => ?_⟩
  · have := (trExec_step I' .isEmpty).1
    simp only [trExec, trSpec, Except.ok.injEq, TrRes.bool.injEq] at this
    simpa [trExec] using this
  · rw [I'.contains, brace_of_not_mem hx]; simp

example : (trSpecs [.insert (s "ab"), .insert (s "a"), .remove (s "a")] []).2 = ["ab".toList] := by
  decide +kernel

end Extra
