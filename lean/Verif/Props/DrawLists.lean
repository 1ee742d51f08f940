import Verif.Lists.DrawProofs

/-!
# Property C85: the drawings of `LinkedList`, `DoublyLinkedList` and `CircularLinkedList`

`World.repr k w i` is `repr` of the list behind handle `i` (Verif/Lists/Draw.lean).  As in
Props/Lists.lean, `Reach k w s` says that world `w` was reached by some program of specified calls and
that `s` are the sequences its lists should hold.
-/

namespace Extra

variable {k : Kind} {w : World Val Unit} {s : AState Val} {i : Nat} {xs : List Val}

/-- C85: the drawing of a list that is not empty shows its items in order, each in a box of its own with
an arrow to the next one.  The lines are equally long, but the first line of a `CircularLinkedList`,
which lacks the two columns of the way back.  Drawing changes nothing. -/
theorem C85_boxes (R : Reach k w s) (hi : s.at? i = some xs) (hx : xs ≠ []) :
    ∃ lines, w.repr k i = (.ok (joinLines lines), w.heap) ∧ (∀ l ∈ lines, '\n' ∉ l) ∧
      lines.length = (if k = .cll then 5 else 3) ∧
      (∀ r l, lines[r]? = some l → l.length = (xs.map (fun x => (PyShow.str x).length + 5)).sum +
        endCols k r) ∧
      ∀ j x, xs[j]? = some x → BoxAt k lines (boxCol k (xs.map PyShow.str) j) (PyShow.str x) := by
  have hn : xs.map (PyShow.str (V := Val)) ≠ [] := by simpa using hx
  refine ⟨_, World.repr_spec R hi, listText_nl k (shown_nl R hi), listText_length k hn,
    fun r l h => ?_, fun j x h => listText_boxAt k (by simp [h])⟩
  have := listText_width k hn h
  simpa [Function.comp_def] using this

/-- C85: the drawing of an empty list -/
theorem C85_empty (R : Reach k w s) (hi : s.at? i = some []) :
    w.repr k i = (.ok "┌─\n│\n└─".toList, w.heap) := World.repr_spec R hi

/-- C85: below the boxes of a `CircularLinkedList` a line leads from the last column back to the middle
of the box of the first item, whose borders are in columns `0` and `n + 3`. -/
theorem C85_way_back (R : Reach .cll w s) (hi : s.at? i = some xs) {x : Val} (hx : xs.head? = some x) :
    ∃ lines, w.repr .cll i = (.ok (joinLines lines), w.heap) ∧ (∀ l ∈ lines, '\n' ∉ l) ∧
      let n := (PyShow.str x).length
      let e := (xs.map (fun x => (PyShow.str x).length + 5)).sum + 1
      ∃ m, (2 * m = n + 3 ∨ 2 * m = n + 4) ∧
        cell lines 3 m = some '↑' ∧ cell lines 4 m = some '└' ∧
        (∀ c, m < c → c < e → cell lines 3 c = some ' ' ∧ cell lines 4 c = some '─') ∧
        cell lines 4 e = some '┘' ∧ cell lines 3 e = some '│' ∧ cell lines 2 e = some '│' ∧
        cell lines 1 e = some '┐' := by
  refine ⟨_, World.repr_spec R hi, listText_nl .cll (shown_nl R hi), ((PyShow.str x).length + 4) / 2,
    by omega, ?_⟩
  cases xs with
  | nil => simp at hx
  | cons y ys =>
    obtain rfl : y = x := by simpa using hx
    have := listText_back (PyShow.str y) (ys.map PyShow.str)
    simpa [boxesWidth, Function.comp_def] using this

/-- C85: two lists of the same class have the same drawing exactly if their items print alike. -/
theorem C85_same_items {w' : World Val Unit} {s' : AState Val} {i' : Nat} {ys : List Val}
    (R : Reach k w s) (hi : s.at? i = some xs) (R' : Reach k w' s') (hi' : s'.at? i' = some ys) :
    (w.repr k i).1 = (w'.repr k i').1 ↔ xs.map PyShow.str = ys.map PyShow.str := by
  rw [World.repr_spec R hi, World.repr_spec R' hi']
  refine ⟨fun h => ?_, fun h => by rw [h]⟩
  simp only [Except.ok.injEq] at h
  exact listText_inj (joinLines_inj (listText_ne _ _) (listText_ne _ _) (listText_nl k (shown_nl R hi))
    (listText_nl k (shown_nl R' hi')) h)

/-- texts from lists of numbers and strings -/
private def drawn (k : Kind) (ops : List (Op Val)) (i : Nat) : Except Err String :=
  match (execs k ops (World.init : World Val Unit)).2.repr k i with
  | (.ok t, _) => .ok (String.ofList t)
  | (.error e, _) => .error e

example : drawn .ll [.new [.val (.int 1), .val (.str "a│\nb".toList)], .addEnd 0 (.val (.int (-3)))] 0 = .ok (
      "┌───┐ ┌───────┐ ┌────┐ \n" ++
      "│ 1 │⟶│ a│\\nb │⟶│ -3 │⟶\n" ++
      "└───┘ └───────┘ └────┘ ") := by decide +kernel

example : drawn .dll [.new [.val (.int 1), .val (.int 20)], .removeFront 0, .addFront 0 (.val (.int 7))] 0 = .ok (
      " ┌───┐ ┌────┐ \n" ++
      "⟷│ 7 │⟷│ 20 │⟷\n" ++
      " └───┘ └────┘ ") := by decide +kernel

example : drawn .cll [.new [.val (.int 10), .val (.int 20)]] 0 = .ok (
      "┌────┐ ┌────┐ \n" ++
      "│ 10 │⟶│ 20 │⟶ ┐\n" ++
      "└────┘ └────┘  │\n" ++
      "   ↑           │\n" ++
      "   └───────────┘") := by decide +kernel

/-- the hypotheses of the theorems hold of such programs -/
example : Reach .cll (execs .cll [.new [.val (.int 10), .val (.int 20)]] (World.init : World Val Unit)).2
    [some [.int 10, .int 20]] := ⟨[.new [.val (.int 10), .val (.int 20)]], [[.ok (.handle 0)]], by
      decide +kernel, rfl⟩

/-- the number 5 and the string "5" print alike -/
example : drawn .ll [.new [.val (.int 5)]] 0 = drawn .ll [.new [.val (.str ['5'])]] 0 := by
  decide +kernel

end Extra
