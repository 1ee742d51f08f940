import Verif.Lists.IterationProofs
import Verif.Props.Lists

/-!
# Property C102: iterating over a list while it is changed

`acts k l as h .fresh` makes a generator over the list object `l` and runs the program `as`: calls of
`next` on the generator, mixed with calls that change the list.  `actsSpec` (Verif/Lists/IterationSpec.lean)
says what the answers of `next` are, without nodes; `pyActs` says what they would be for a Python
list.
-/

namespace Extra

variable {k : Kind} {w : LWorld} {s : AState Val} {i : Nat} {l : Addr} {xs ys : List Val}

/-- C102: the answers of a generator in any program of index-based changes are those of the
specification, as are the values afterwards.  The specification says nothing about a circular list
whose generator is resumed after the list was emptied and filled again; see `C102_total`. -/
theorem C102_history (R : Reach k w s) (hi : s.at? i = some xs) (hl : w.env[i]? = some l)
    (as : List (Act Val)) {out : List (Step Val)} {cur : IterPos Val}
    (e : actsSpec k as (xs, .fresh) = some (out, ys, cur)) :
    ∃ h it, acts k l as w.heap .fresh = (out, h, it) ∧ toList l h = (.ok (ys.map some), h) := by
  obtain ⟨nsf, I⟩ := R.inv
  have r := I.rep i xs l hi hl
  obtain ⟨h, it, e1, ns, r', _⟩ := acts_ok as (s := (xs, .fresh)) (it := .fresh) ⟨_, r, trivial⟩ e
  exact ⟨h, it, e1, toList_spec r'⟩

/-- C102: for linked and doubly linked lists the specification covers every program whose indices are
in range. -/
theorem C102_total (hk : k ≠ .cll) (as : List (Act Val)) (h : pyActs as (xs, some 0) ≠ none) :
    actsSpec k as (xs, .fresh) ≠ none :=
  spec_total hk as (cur := .fresh) (by simp [IterPos.Known]) h

/-- C102: as long as nothing moves among the values already given, a generator answers like the
iterator of a Python list. -/
theorem C102_like_python_partial (R : Reach k w s) (hi : s.at? i = some xs) (hl : w.env[i]? = some l)
    (as : List (Act Val)) (hA : Ahead as (xs, some 0)) {out : List (Step Val)}
    (e : pyActs as (xs, some 0) = some out) :
    (acts k l as w.heap .fresh).1 = out := by
  obtain ⟨⟨ys, cur⟩, e1⟩ := py_acts (k := k) as (xs := xs) (cur := .fresh) (it := some 0)
    (by simp [Even]) hA e
  obtain ⟨h, it, e2, _⟩ := C102_history R hi hl as e1
  rw [e2]

/-- C102: over a list nobody changes, `next` gives its values in order and then stops. -/
theorem C102_unchanged (R : Reach k w s) (hi : s.at? i = some xs) (hl : w.env[i]? = some l) :
    (acts k l (List.replicate (xs.length + 1) .next) w.heap .fresh).1 =
      xs.map (fun v => .item (some v)) ++ [.stop] := by
  obtain ⟨h1, h2⟩ := py_nexts xs xs.length 0 (by omega)
  exact C102_like_python_partial R hi hl _ h2 h1

/-- C102: `for x in ll: ll.add_end(v)` does not end: every call of `next` gives an item. -/
theorem C102_add_end_forever (R : Reach k w s) (hi : s.at? i = some xs) (hl : w.env[i]? = some l)
    (hne : xs ≠ []) (v : Val) (n : Nat) :
    (acts k l (rounds (.addEnd v) n) w.heap .fresh).1 =
      ((xs ++ List.replicate n v.norm).take (n + 1)).map (fun v => .item (some v)) := by
  obtain ⟨h1, h2⟩ := py_addEnd v n 0 xs (List.length_pos_iff.2 hne)
  exact C102_like_python_partial R hi hl _ h2 h1

/-- C102: `for x in ll: ll.add_front(v)` over a linked or doubly linked list gives the values that
were there and then raises `AttributeError`; a Python list would give its first value again and
again. -/
theorem C102_add_front_raises (hk : k ≠ .cll) (R : Reach k w s) (hi : s.at? i = some xs)
    (hl : w.env[i]? = some l) (hne : xs ≠ []) (v : Val) :
    (acts k l (rounds (.addFront v) xs.length) w.heap .fresh).1 =
      xs.map (fun v => .item (some v)) ++ [.raised .attributeError] := by
  obtain ⟨x, xs', rfl⟩ := List.exists_cons_of_ne_nil hne
  obtain ⟨⟨ys, cur⟩, hq⟩ := spec_addFront hk v (x :: xs') xs'.length 1 (by omega)
    (by simp; omega)
  have hn : ∀ m, newCell k m 0 = 0 := fun m => by
    unfold newCell; rw [if_neg (fun q => hk q.1)]
  have e : actsSpec k (rounds (.addFront v) (x :: xs').length) (x :: xs', .fresh) =
      some ((x :: xs').map (fun v => .item (some v)) ++ [.raised .attributeError], ys, cur) := by
    simp only [List.length_cons, rounds, actsSpec, IterPos.next, reduceCtorEq, if_false, goTo,
      List.getElem?_cons_zero, Act.spec, putValue, List.insertIdx_zero, IterPos.map, Place.grow, hn,
      Nat.not_lt_zero]
    simp only [List.replicate_one, List.singleton_append, Nat.sub_self, Nat.mul_one,
      Nat.zero_add, List.drop_succ_cons, List.drop_zero] at hq ⊢
    rw [show (2 - 1 : Nat) = 1 from rfl] at hq
    rw [hq]; rfl
  obtain ⟨h, it, e2, _⟩ := C102_history R hi hl _ e
  rw [e2]

/-- `K(values)`, then the program -/
private def runOn (k : Kind) (ns : List Int) (as : List (Act Val)) : List (Step Val) :=
  (acts k 0 as (execs k [.new (ns.map (fun n => .val (.int n)))] (World.init : LWorld)).2.heap .fresh).1

private def gives (ns : List Int) : List (Step Val) := ns.map (fun n => .item (some (.int n)))

/-- the hypotheses of the theorems: a reachable list with several values -/
example : Reach .dll (execs .dll [.new ([1, 2, 3].map (fun n => .val (.int n)))] (World.init : LWorld)).2
    [some [.int 1, .int 2, .int 3]] :=
  ⟨[.new ([1, 2, 3].map (fun n => .val (.int n)))], [[.ok (.handle 0)]], by decide +kernel, rfl⟩

/-- a program of `C102_history` in which the cursor stands on a dropped cell, with another dropped
cell after it -/
example : actsSpec .ll [.next, .next, .delItem 1, .delItem 1, .next, .next, .next]
      ([.int 1, .int 2, .int 3, .int 4, .int 5, .int 6], .fresh) =
    some (gives [1, 2, 3, 4] ++ [.stop], [.int 1, .int 4, .int 5, .int 6], .over) := by
  decide +kernel

example : runOn .ll [1, 2, 3, 4, 5, 6] [.next, .next, .delItem 1, .delItem 1, .next, .next, .next] =
    gives [1, 2, 3, 4] ++ [.stop] := by decide +kernel

/-- the same for a circular list: the cell after the last is the first -/
example : actsSpec .cll [.next, .addFront (.int 9), .next, .addFront (.int 9), .next, .next, .next]
      ([.int 1, .int 2], .fresh) =
    some (gives [1, 1, 2, 9] ++ [.stop], [.int 9, .int 9, .int 1, .int 2], .over) := by decide +kernel

example : runOn .cll [1, 2] [.next, .addFront (.int 9), .next, .addFront (.int 9), .next, .next, .next] =
    gives [1, 1, 2, 9] ++ [.stop] := by decide +kernel

private def aheadProgram : List (Act Val) :=
  [.next, .next, .insert 2 (.int 7), .remove (.int 4) true, .setItem 0 (.int 8), .next,
    .addEnd (.int 6), .next, .next, .next, .next, .clear]

/-- a program that stays ahead of the iterator, as `C102_like_python_partial` wants -/
example : Ahead aheadProgram ([.int 1, .int 2, .int 3, .int 4], some 0) ∧
    pyActs aheadProgram ([.int 1, .int 2, .int 3, .int 4], some 0) =
      some (gives [1, 2, 7, 3, 6] ++ [.stop, .stop]) := by
  refine ⟨?_, by decide +kernel⟩
  refine ⟨fun n e => ?_, fun ys e => ?_⟩
  · cases e; decide +kernel
  cases e
  refine ⟨fun n e => ?_, fun ys e => ?_⟩
  · cases e; decide +kernel
  cases e
  refine ⟨fun n e => ?_, fun ys e => ?_⟩
  · cases e; decide +kernel
  cases e
  refine ⟨fun n e => ?_, fun ys e => ?_⟩
  · cases e; decide +kernel
  cases e
  refine ⟨fun n e => ?_, fun ys e => ?_⟩
  · cases e
  exact trivial

/-- C102: where something moves among the values already given the three classes differ from a
Python list.  Adding in front ends in an `AttributeError`; removing each value as it is given skips
other values; and after `clear` a generator still gives the old values. -/
theorem C102_like_python_fails :
    (runOn .ll [1] [.next, .addFront (.int 9), .next] = gives [1] ++ [.raised .attributeError] ∧
      runOn .dll [1] [.next, .addFront (.int 9), .next] = gives [1] ++ [.raised .attributeError] ∧
      pyActs [.next, .addFront (.int 9), .next] ([.int 1], some 0) = some (gives [1, 1])) ∧
    (∀ k, runOn k [1, 2, 3, 4, 5, 6] [.next, .remove (.int 1) true, .next, .remove (.int 3) true, .next,
        .remove (.int 4) true, .next] = gives [1, 3, 4] ++ [.stop]) ∧
    pyActs [.next, .remove (.int 1) true, .next, .remove (.int 3) true, .next]
      ([.int 1, .int 2, .int 3, .int 4, .int 5, .int 6], some 0) = some (gives [1, 3, 5]) ∧
    (∀ k, runOn k [1, 2, 3] [.next, .clear, .addEnd (.int 7), .addEnd (.int 8), .next] = gives [1, 2]) ∧
    pyActs [.next, .clear, .addEnd (.int 7), .addEnd (.int 8), .next]
      ([.int 1, .int 2, .int 3], some 0) = some (gives [1, 8]) := by
  refine ⟨by decide +kernel, ?_, by decide +kernel, ?_, by decide +kernel⟩
  · rintro (_ | _ | _) <;> decide +kernel
  · rintro (_ | _ | _) <;> decide +kernel

end Extra
