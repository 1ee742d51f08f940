import Verif.Lists.PropsAux
import Verif.Lists.CopyInit

/-!
# Properties C01-C14: the linked lists

Statements are about `exec`/`execs`, the execution of API calls on the heap model
(Verif/Lists/World.lean), for items of type `Val` (numbers, strings, other objects).  `arun`/`astep`
is the specification on plain sequences (Verif/Lists/Spec.lean).  `Reach k w s` says that world `w`
was reached by some program of specified calls and that `s` are the sequences its lists should hold.
-/

namespace Extra

/-- a program state of lists of `Val`s -/
abbrev LWorld := World Val Unit

/-- numbers as list items -/
private def nums (ns : List Int) : List (Item Val) := ns.map (fun n => .val (.int n))

variable {k : Kind} {w : LWorld} {s : AState Val} {i j : Nat} {xs ys : List Val}

/-! ## C01-C03: every history behaves like a history on a sequence -/

/-- C01: every call of every history on a `LinkedList` is covered by the specification and returns
exactly the result the specification gives. -/
theorem C01_linkedList_history (items : List Val) (ops : List (Op Val)) (h : ∀ op ∈ ops, op.on 0) :
    ∃ rs s', arun .ll (.new (items.map .val) :: ops) [] = some (rs.map ([·]), s') ∧
      (execs .ll (.new (items.map .val) :: ops) (World.init : LWorld)).1 = rs := by
  have h0 := specItems_val items
  obtain ⟨rss, s', ys, e, _, hs⟩ := arun_on (k := .ll) h (s := [some (items.map Val.norm)])
    (xs := items.map Val.norm) rfl
  obtain ⟨rs, rfl⟩ := hs (by simp)
  have e1 : arun .ll (.new (items.map .val) :: ops) [] =
      some (((.ok (.handle 0) : Res Val) :: rs).map ([·]), s') := by
    simp only [arun, astep, specNew, h0, one, Option.bind_eq_bind, Option.bind_some,
      List.nil_append]
    rw [show (PyData.norm : Val → Val) = Val.norm from rfl, e]; rfl
  exact ⟨_, s', e1, forall₂_singletons (history_refines _ (Inv.init (nsf := fun _ => [])) e1).1⟩

/-- C02: the same for `DoublyLinkedList`. -/
theorem C02_doublyLinkedList_history (items : List Val) (ops : List (Op Val))
    (h : ∀ op ∈ ops, op.on 0) :
    ∃ rs s', arun .dll (.new (items.map .val) :: ops) [] = some (rs.map ([·]), s') ∧
      (execs .dll (.new (items.map .val) :: ops) (World.init : LWorld)).1 = rs := by
  have h0 := specItems_val items
  obtain ⟨rss, s', ys, e, _, hs⟩ := arun_on (k := .dll) h (s := [some (items.map Val.norm)])
    (xs := items.map Val.norm) rfl
  obtain ⟨rs, rfl⟩ := hs (by simp)
  have e1 : arun .dll (.new (items.map .val) :: ops) [] =
      some (((.ok (.handle 0) : Res Val) :: rs).map ([·]), s') := by
    simp only [arun, astep, specNew, h0, one, Option.bind_eq_bind, Option.bind_some,
      List.nil_append]
    rw [show (PyData.norm : Val → Val) = Val.norm from rfl, e]; rfl
  exact ⟨_, s', e1, forall₂_singletons (history_refines _ (Inv.init (nsf := fun _ => [])) e1).1⟩

/-- C03: the same for `CircularLinkedList`, whose specification reduces positions modulo the length.
The result of each call is among those the specification allows; it allows two for an item
assignment to an empty list, one for everything else. -/
theorem C03_circularLinkedList_history (items : List Val) (ops : List (Op Val))
    (h : ∀ op ∈ ops, op.on 0) :
    ∃ rss s', arun .cll (.new (items.map .val) :: ops) [] = some (rss, s') ∧
      List.Forall₂ (fun r rs => r ∈ rs)
        (execs .cll (.new (items.map .val) :: ops) (World.init : LWorld)).1 rss := by
  have h0 := specItems_val items
  obtain ⟨rss, s', ys, e, _, _⟩ := arun_on (k := .cll) h (s := [some (items.map Val.norm)])
    (xs := items.map Val.norm) rfl
  have e1 : arun .cll (.new (items.map .val) :: ops) [] =
      some ([.ok (.handle 0)] :: rss, s') := by
    simp only [arun, astep, specNew, h0, one, Option.bind_eq_bind, Option.bind_some,
      List.nil_append]
    rw [show (PyData.norm : Val → Val) = Val.norm from rfl, e]; rfl
  exact ⟨_, s', e1, (history_refines _ (Inv.init (nsf := fun _ => [])) e1).1⟩

/-- C01-C03: programs over several lists, including `extend` and comparisons.  Whenever the
specification covers a program, each result is one it allows. -/
theorem C03_programs_refine (ops : List (Op Val)) {rss : List (List (Res Val))} {s' : AState Val}
    (h : arun k ops [] = some (rss, s')) :
    List.Forall₂ (fun r rs => r ∈ rs) (execs k ops (World.init : LWorld)).1 rss :=
  (history_refines ops (Inv.init (nsf := fun _ => [])) h).1

/-- C01-C03: a call that raises leaves what every list reports unchanged. -/
theorem C01_error_leaves_contents (R : Reach k w s) {op : Op Val} {rs : List (Res Val)}
    {s' : AState Val} (e : astep k op s = some (rs, s')) {er : Err}
    (he : (exec k op w).1 = .error er) (hi : s.at? i = some xs) :
    (exec k (.toList i) (exec k op w).2).1 = .ok (.list (xs.map some)) := by
  obtain ⟨h1, R'⟩ := R.step e
  rw [he] at h1
  have := astep_error e h1
  subst this
  exact (R'.step_one (op := .toList i) (s' := s') (by simp [astep, hi, specRead])).1

/-- the specification is not trivial: a history and its results -/
example : (execs .ll [.new (nums [1, 2, 3]), .insert 0 (.int 1) (.val (.int 9)), .delItem 0 (.int 7),
    .remove 0 (.val (.int 3)) (some false), .toList 0] (World.init : LWorld)).1 =
    [.ok (.handle 0), .ok .unit, .error .indexError, .ok .unit,
      .ok (.list [some (.int 1), some (.int 9), some (.int 2)])] := by decide +kernel

example : (execs .dll [.new (nums [1, 2, 3]), .addEnd 0 .none, .rotate 0 (some 1) .right (.bool true),
    .toList 0] (World.init : LWorld)).1 =
    [.ok (.handle 0), .error .valueError, .ok .unit,
      .ok (.list [some (.int 3), some (.int 1), some (.int 2)])] := by decide +kernel

example : (execs .cll [.new (nums [1, 2, 3]), .getItem 0 (.int 7), .delItem 0 (.int 4), .toList 0]
    (World.init : LWorld)).1 =
    [.ok (.handle 0), .ok (.val (some (.int 2))), .ok .unit,
      .ok (.list [some (.int 1), some (.int 3)])] := by decide +kernel

/-- C03, a deviation: after it was emptied, a `CircularLinkedList` accepts an item assignment and
forgets it, while one that never held anything raises `AttributeError`. -/
theorem C03_setItem_on_empty :
    (execs .cll [.new [], .setItem 0 (.int 0) (.val (.int 1))] (World.init : LWorld)).1 =
      [.ok (.handle 0), .error .attributeError] ∧
    (execs .cll [.new (nums [5]), .removeFront 0, .setItem 0 (.int 0) (.val (.int 1)), .toList 0]
      (World.init : LWorld)).1 =
      [.ok (.handle 0), .ok .unit, .ok .unit, .ok (.list [])] := by decide +kernel

/-! ## C04: links of the doubly linked list are symmetric -/

/-- C04: walking backwards along `_prev` from the tail node visits exactly the contents in reverse
order, however long one walks. -/
theorem C04_backward_walk (R : Reach .dll w s) (hi : s.at? i = some xs) (hne : xs ≠ [])
    {l : Addr} (hl : w.env[i]? = some l) {n : Nat} (hn : xs.length ≤ n) :
    walkBack w.heap n (w.heap.lobj l).tail = (xs.map some).reverse := by
  obtain ⟨nsf, I⟩ := R.inv
  have r := I.rep i xs l hi hl
  have hns : nsf i ≠ [] := by
    intro e
    have := r.length_eq
    rw [e] at this
    exact hne (List.eq_nil_of_length_eq_zero this.symm)
  rw [r.tail rfl hns, walkBack_spec n _ (r.plinks rfl) (by rw [r.length_eq]; exact hn), r.data]

example : ∃ (w : LWorld) (s : AState Val), Reach .dll w s ∧
    s.at? 0 = some [Val.int 3, .int 1, .int 2] :=
  ⟨_, _, ⟨[.new (nums [1, 2, 3]), .rotate 0 (some 1) .right (.bool true)], _, rfl, rfl⟩, by decide +kernel⟩

/-! ## C05: construction -/

/-- C05: a list built from valid items holds exactly these items (newlines escaped) in order. -/
theorem C05_construct_valid (k : Kind) (items : List Val) :
    (execs k [.new (items.map .val), .toList 0, .len 0] (World.init : LWorld)).1 =
      [.ok (.handle 0), .ok (.list ((items.map Val.norm).map some)), .ok (.nat items.length)] := by
  have h0 := specItems_val items
  refine forall₂_singletons (history_refines (s' := [some (items.map Val.norm)]) _
    (Inv.init (k := k) (nsf := fun _ => [])) ?_).1
  simp only [arun, astep, specNew, h0, one, Option.bind_eq_bind, Option.bind_some, List.nil_append]
  simp [specRead, AState.at?, one, PyData.norm]

/-- C05: the first unacceptable item decides the exception: `ValueError` for `None`, `TypeError` for
an instance of one of the library's classes. -/
theorem C05_construct_invalid (k : Kind) (pre : List Val) (post : List (Item Val)) :
    (exec k (.new (pre.map .val ++ .none :: post)) (World.init : LWorld)).1 = .error .valueError ∧
    (exec k (.new (pre.map .val ++ .extra :: post)) (World.init : LWorld)).1 = .error .typeError := by
  have h0 : ∀ e : Err, ∀ it : Item Val, specItem it = .error e →
      specItems (pre.map .val ++ it :: post) = .error e := by
    intro e it hit
    induction pre with
    | nil => simp [specItems, hit]
    | cons v vs ih => simp [specItems, specItem, ih]
  constructor
  · exact (Reach.init.step_one (s' := []) (by simp [astep, specNew, h0 .valueError .none rfl])).1
  · exact (Reach.init.step_one (s' := []) (by simp [astep, specNew, h0 .typeError .extra rfl])).1

example : (execs .dll [.new [.val (.str ['a', '\n'])], .toList 0] (World.init : LWorld)).1 =
    [.ok (.handle 0), .ok (.list [some (.str ['a', '\\', 'n'])])] := by decide +kernel

/-! ## C06: derived lists are independent -/

/-- C06: `copy()` gives a new list with the same contents. -/
theorem C06_copy (R : Reach k w s) (hi : s.at? i = some xs) :
    (exec k (.copy i) w).1 = .ok (.handle s.length) ∧
    Reach k (exec k (.copy i) w).2 (s ++ [some xs]) :=
  R.step_one (by simp [astep, hi, specNew])

/-- C06: `reverse()` gives a new list with the reversed contents. -/
theorem C06_reverse (R : Reach k w s) (hi : s.at? i = some xs) :
    (exec k (.reverse i) w).1 = .ok (.handle s.length) ∧
    Reach k (exec k (.reverse i) w).2 (s ++ [some xs.reverse]) :=
  R.step_one (by simp [astep, hi, specNew])

/-- C06: a slice with a positive step gives a new list with the sliced contents. -/
theorem C06_slice (hk : k ≠ .cll) (R : Reach k w s) (hi : s.at? i = some xs)
    (start stop step : Option Int) (hstep : 0 < step.getD 1) :
    (exec k (.getItem i (.slice start stop step)) w).1 = .ok (.handle s.length) ∧
    Reach k (exec k (.getItem i (.slice start stop step)) w).2
      (s ++ [some (specSlice xs start stop (step.getD 1))]) := by
  refine R.step_one ?_
  have h1 : ¬ step.getD 1 = 0 := by omega
  cases k with
  | cll => exact absurd rfl hk
  | ll | dll => simp [astep, hi, specNew, specSliceImpl, hstep, h1]

/-- C06: `split(p)` gives two new lists. -/
theorem C06_split (R : Reach k w s) (hi : s.at? i = some xs) (p : Nat)
    (hp : k ≠ .cll → p ≤ xs.length) :
    (exec k (.split i (.int p)) w).1 = .ok (.handles s.length (s.length + 1)) ∧
    Reach k (exec k (.split i (.int p)) w).2
      (s ++ [some (xs.take (if k = .cll then p % xs.length else p)),
        some (xs.drop (if k = .cll then p % xs.length else p))]) := by
  refine R.step_one ?_
  have : specPos k xs.length (.int p) = .ok p := by
    have h1 : ¬ (p : Int) < 0 := by omega
    have h2 : ¬ (k ≠ .cll ∧ (xs.length : Int) < p) := by
      rintro ⟨h3, h4⟩; have := hp h3; omega
    simp only [specPos, h1, h2, if_false, Int.toNat_natCast]
  simp [astep, hi, this]

/-- C06: a rotation that is not in place gives a new list. -/
theorem C06_rotate_new (R : Reach k w s) (hi : s.at? i = some xs) (d : Nat) (dir : Dir) :
    (exec k (.rotate i (some d) dir (.bool false)) w).1 = .ok (.handle s.length) ∧
    Reach k (exec k (.rotate i (some d) dir (.bool false)) w).2
      (s ++ [some (specRotate xs d dir)]) := by
  refine R.step_one ?_
  have h1 : ¬ (d : Int) < 0 := by omega
  simp [astep, hi, specNew, specFlag, h1]

/-- C06: what a list reports only changes through calls that write to this very list: no program of
specified calls on other lists (the original, copies, slices, ...) changes it. -/
theorem C06_independent (R : Reach k w s) (hi : s.at? i = some xs) (ops : List (Op Val))
    (hw : ∀ op ∈ ops, i ∉ op.writes) {rss : List (List (Res Val))} {s' : AState Val}
    (e : arun k ops s = some (rss, s')) :
    (exec k (.toList i) (execs k ops w).2).1 = .ok (.list (xs.map some)) := by
  have R' := (R.steps e).2
  exact (R'.step_one (op := .toList i) (s' := s')
    (by simp [astep, arun_frame hw hi e, specRead])).1

example : (execs .dll [.new (nums [1, 2, 3]), .copy 0, .clear 0, .toList 1, .addFront 1 (.val (.int 7)),
    .toList 0, .toList 1] (World.init : LWorld)).1 =
    [.ok (.handle 0), .ok (.handle 1), .ok .unit,
      .ok (.list [some (.int 1), some (.int 2), some (.int 3)]), .ok .unit, .ok (.list []),
      .ok (.list [some (.int 7), some (.int 1), some (.int 2), some (.int 3)])] := by decide +kernel

/-! ## C07: extend -/

/-- C07: `a.extend(b)` for distinct lists makes `a` hold the concatenation, and `b` still reports its
own items. -/
theorem C07_extend (R : Reach k w s) (hij : i ≠ j) (hi : s.at? i = some xs) (hj : s.at? j = some ys) :
    (exec k (.extend i j) w).1 = .ok .unit ∧
    (exec k (.toList i) (exec k (.extend i j) w).2).1 = .ok (.list ((xs ++ ys).map some)) ∧
    (exec k (.len i) (exec k (.extend i j) w).2).1 = .ok (.nat (xs.length + ys.length)) ∧
    (exec k (.toList j) (exec k (.extend i j) w).2).1 = .ok (.list (ys.map some)) := by
  by_cases hy : ys = []
  · subst hy
    obtain ⟨h1, R'⟩ := R.step_one (op := .extend i j) (r := .ok .unit) (s' := s)
      (by simp [astep, hi, hj])
    exact ⟨h1, (R'.step_one (op := .toList i) (s' := s) (by simp [astep, hi, specRead])).1,
      (R'.step_one (op := .len i) (s' := s) (by simp [astep, hi, specRead])).1,
      (R'.step_one (op := .toList j) (s' := s) (by simp [astep, hj, specRead])).1⟩
  · by_cases hk : k = .cll
    · subst hk
      obtain ⟨h1, R'⟩ := R.step_one (op := .extend i j) (r := .ok .unit) (s' := s.put i (xs ++ ys))
        (by simp [astep, hi, hj, hy, hij])
      have hi' : (s.put i (xs ++ ys)).at? i = some (xs ++ ys) := by rw [at?_put hi]; simp
      have hj' : (s.put i (xs ++ ys)).at? j = some ys := by rw [at?_put hi]; simp [Ne.symm hij, hj]
      exact ⟨h1, (R'.step_one (op := .toList i) (s' := s.put i (xs ++ ys))
          (by simp [astep, hi', specRead])).1,
        (R'.step_one (op := .len i) (s' := s.put i (xs ++ ys)) (by simp [astep, hi', specRead])).1,
        (R'.step_one (op := .toList j) (s' := s.put i (xs ++ ys)) (by simp [astep, hj', specRead])).1⟩
    · obtain ⟨h1, R'⟩ := R.step_one (op := .extend i j) (r := .ok .unit)
        (s' := (s.put i (xs ++ ys)).set j none) (by simp [astep, hi, hj, hy, hij, hk])
      have hi' : AState.at? ((s.put i (xs ++ ys)).set j none) i = some (xs ++ ys) := by
        rw [AState.at?, List.getElem?_set_ne (Ne.symm hij)]
        have := at?_put hi (j := i) (ys := xs ++ ys)
        rw [if_pos rfl] at this
        exact this
      refine ⟨h1, (R'.step_one (op := .toList i) (s' := (s.put i (xs ++ ys)).set j none)
          (by simp [astep, hi', specRead])).1,
        (R'.step_one (op := .len i) (s' := (s.put i (xs ++ ys)).set j none)
          (by simp [astep, hi', specRead])).1, ?_⟩
      obtain ⟨nsf, I⟩ := R.inv
      obtain ⟨l, hl, r⟩ := I.addr hi
      obtain ⟨o, ho, ro⟩ := I.addr hj
      obtain ⟨hne, hsep⟩ := I.sep i j xs ys l o hij hi hj hl ho
      obtain ⟨h', e, e2, _⟩ := extend_keeps_other hk w.fuel r ro
        (fun a ha hb => hsep a (Or.inl ha) (Or.inl hb)) hne
      have : exec k (.extend i j) w = (.ok .unit, ⟨h', w.env⟩) := by
        simp [exec, World.run, run_bind, w.addr_run hl, w.addr_run ho, e]
      rw [this]
      simp [exec, World.run, run_bind, World.addr_run ⟨h', w.env⟩ ho, e2]

example : (execs .ll [.new (nums [1]), .new (nums [2, 3]), .extend 0 1, .toList 0, .toList 1]
    (World.init : LWorld)).1 =
    [.ok (.handle 0), .ok (.handle 1), .ok .unit,
      .ok (.list [some (.int 1), some (.int 2), some (.int 3)]),
      .ok (.list [some (.int 2), some (.int 3)])] := by decide +kernel

/-! ## C08: aliasing -/

/-- C08 fails for `LinkedList` and `DoublyLinkedList`: after `a.extend(b)`, an item assignment to `b`
changes what `a` reports. -/
theorem C08_extend_aliases (k : Kind) (hk : k ≠ .cll) :
    (execs k [.new (nums [1]), .new (nums [2]), .extend 0 1, .toList 0,
      .setItem 1 (.int 0) (.val (.int 9)), .toList 0] (World.init : LWorld)).1 =
    [.ok (.handle 0), .ok (.handle 1), .ok .unit, .ok (.list [some (.int 1), some (.int 2)]), .ok .unit,
      .ok (.list [some (.int 1), some (.int 9)])] := by
  cases k with
  | cll => exact absurd rfl hk
  | ll | dll => decide +kernel

/-- C08 fails for the copy constructor of every class: after `a = K(b)`, an item assignment to `b`
changes what `a` reports. -/
theorem C08_constructor_aliases (k : Kind) :
    ((do
      let b ← initFrom k (nums [1, 2])
      let a ← initAlias k b
      let before ← toList a
      setItem k b (.int 0) (.val (.int 9))
      let after ← toList a
      M.pure (before, after)) (Heap.empty : Heap Val Unit)).1 =
    .ok ([some (.int 1), some (.int 2)], [some (.int 9), some (.int 2)]) := by
  cases k <;> decide +kernel

/-- C08, a further part that holds: `a = K(b)` has the items of `b`, and if the program does not use `b` any more,
`a` and the other lists behave as sequences from then on, for every class. -/
theorem C08_constructor_partial (R : Reach k w s) (hi : s.at? i = some xs) {l : Addr} (hl : w.env[i]? = some l)
    (ops : List (Op Val)) {rss : List (List (Res Val))} {s' : AState Val}
    (e : arun k ops (s.set i none ++ [some xs]) = some (rss, s')) :
    ∃ h' a, initAlias k l w.heap = (.ok a, h') ∧
      List.Forall₂ (fun r rs => r ∈ rs) (execs k ops ⟨h', w.env ++ [a]⟩).1 rss := by
  obtain ⟨nsf, I⟩ := R.inv
  obtain ⟨h', a, nsf', e1, I'⟩ := I.moved hi hl
  exact ⟨h', a, e1, (history_refines ops I' e).1⟩

/-- `b = DoublyLinkedList([1, 2, 3])`, `a = DoublyLinkedList(b)`; then two items are removed at the end of `a`, one
is added there, and it is reversed. -/
example : (let w := (execs .dll [.new (nums [1, 2, 3])] (World.init : LWorld)).2
    match w.env[0]? with
    | some l =>
      match initAlias .dll l w.heap with
      | (.ok a, h) => (execs .dll [.removeEnd 1, .removeEnd 1, .addEnd 1 (.val (.int 7)), .toList 1, .reverse 1, .toList 2]
          ⟨h, w.env ++ [a]⟩).1
      | _ => []
    | none => []) =
    [.ok .unit, .ok .unit, .ok .unit, .ok (.list [some (.int 1), some (.int 7)]), .ok (.handle 2),
      .ok (.list [some (.int 7), some (.int 1)])] := by decide +kernel

/-- C08, the part that holds: `CircularLinkedList.extend` copies, so no program that writes to `b`
but not to `a` changes what `a` reports.  Missing: `LinkedList` and `DoublyLinkedList`, and the copy
constructor, where the claim is false (`C08_extend_aliases`, `C08_constructor_aliases`). -/
theorem C08_extend_no_alias_partial (R : Reach .cll w s) (hij : i ≠ j) (hi : s.at? i = some xs)
    (hj : s.at? j = some ys) (ops : List (Op Val)) (hw : ∀ op ∈ ops, i ∉ op.writes)
    {rss : List (List (Res Val))} {s' : AState Val}
    (e : arun .cll ops (s.put i (xs ++ ys)) = some (rss, s')) :
    (exec .cll (.toList i) (execs .cll ops (exec .cll (.extend i j) w).2).2).1 =
      .ok (.list ((xs ++ ys).map some)) := by
  have hi' : (s.put i (xs ++ ys)).at? i = some (xs ++ ys) := by rw [at?_put hi]; simp
  refine C06_independent (s := s.put i (xs ++ ys)) ?_ hi' ops hw e
  by_cases hy : ys = []
  · subst hy
    have h1 := (R.step_one (op := .extend i j) (r := .ok .unit) (s' := s) (by simp [astep, hi, hj])).2
    have : s.put i (xs ++ []) = s := by
      rw [List.append_nil, AState.put]
      apply List.ext_getElem?
      intro m
      rw [List.getElem?_set]
      split
      · rename_i h; subst h
        have hlt := at?_lt hi
        rw [AState.at?] at hi
        simp only [hlt, if_true]
        cases hs : s[i]? with
        | none => rw [hs] at hi; cases hi
        | some o => rw [hs] at hi; simp at hi; rw [hi]
      · rfl
    rw [this]; exact h1
  · exact (R.step_one (op := .extend i j) (r := .ok .unit) (s' := s.put i (xs ++ ys))
      (by simp [astep, hi, hj, hy, hij])).2

example : (execs .cll [.new (nums [1]), .new (nums [2]), .extend 0 1, .setItem 1 (.int 0) (.val (.int 9)),
      .toList 0, .toList 1] (World.init : LWorld)).1 =
    [.ok (.handle 0), .ok (.handle 1), .ok .unit, .ok .unit, .ok (.list [some (.int 1), some (.int 2)]),
      .ok (.list [some (.int 9)])] := by decide +kernel

/-! ## C09: split and rotation -/

/-- C09: the two parts of `split(p)` concatenate to the original, and the first has length `p`
(`p mod n` for the circular list). -/
theorem C09_split (R : Reach k w s) (hi : s.at? i = some xs) (p : Nat)
    (hp : k ≠ .cll → p ≤ xs.length) :
    ∃ ys zs, (execs k [.split i (.int p), .toList s.length, .toList (s.length + 1)] w).1 =
        [.ok (.handles s.length (s.length + 1)), .ok (.list (ys.map some)), .ok (.list (zs.map some))] ∧
      ys ++ zs = xs ∧ (xs ≠ [] → ys.length = if k = .cll then p % xs.length else p) := by
  obtain ⟨h1, R1⟩ := C06_split R hi p hp
  generalize hq : (if k = .cll then p % xs.length else p) = q at *
  obtain ⟨h2, R2⟩ := R1.toList (at?_append_new _)
  obtain ⟨h3, R3⟩ := R2.toList at?_append_new2
  refine ⟨xs.take q, xs.drop q, ?_, List.take_append_drop q xs, fun hne => ?_⟩
  · simp only [execs, h1, h2, h3]
  · rw [List.length_take]
    apply Nat.min_eq_left
    rw [← hq]
    split
    · exact Nat.le_of_lt (Nat.mod_lt _ (List.length_pos_iff.2 hne))
    · rename_i hc; exact hp hc

/-- C09: `rotate_left(d)` in place moves the first `d mod n` items to the end, `rotate_right(d)` the
last `d mod n` to the front. -/
theorem C09_rotate (R : Reach k w s) (hi : s.at? i = some xs) (d : Nat) :
    (execs k [.rotate i (some d) .left (.bool true), .toList i] w).1 =
      [.ok .unit, .ok (.list ((xs.drop (d % xs.length) ++ xs.take (d % xs.length)).map some))] ∧
    (execs k [.rotate i (some d) .right (.bool true), .toList i] w).1 =
      [.ok .unit, .ok (.list ((xs.drop (xs.length - d % xs.length) ++
        xs.take (xs.length - d % xs.length)).map some))] := by
  have h0 : ¬ (d : Int) < 0 := by omega
  have key : ∀ dir : Dir, (execs k [.rotate i (some d) dir (.bool true), .toList i] w).1 =
      [.ok .unit, .ok (.list ((specRotate xs d dir).map some))] := by
    intro dir
    obtain ⟨h1, R1⟩ := R.step_one (op := .rotate i (some d) dir (.bool true)) (r := .ok .unit)
      (s' := s.put i (specRotate xs d dir)) (by simp [astep, hi, specUpd, specFlag, h0])
    have hi' : (s.put i (specRotate xs d dir)).at? i = some (specRotate xs d dir) := by
      rw [at?_put hi]; simp
    obtain ⟨h2, _⟩ := R1.toList hi'
    simp only [execs, h1, h2]
  refine ⟨(key .left).trans ?_, (key .right).trans ?_⟩
  · rw [specRotate_left]
  · rw [specRotate_right]

/-- C09: `rotate_right(d)` undoes `rotate_left(d)`. -/
theorem C09_rotate_undo (R : Reach k w s) (hi : s.at? i = some xs) (d : Nat) :
    (execs k [.rotate i (some d) .left (.bool true), .rotate i (some d) .right (.bool true),
      .toList i] w).1 = [.ok .unit, .ok .unit, .ok (.list (xs.map some))] := by
  have h0 : ¬ (d : Int) < 0 := by omega
  obtain ⟨h1, R1⟩ := R.step_one (op := .rotate i (some d) .left (.bool true)) (r := .ok .unit)
    (s' := s.put i (specRotate xs d .left)) (by simp [astep, hi, specUpd, specFlag, h0])
  have hi1 : (s.put i (specRotate xs d .left)).at? i = some (specRotate xs d .left) := by
    rw [at?_put hi]; simp
  obtain ⟨h2, R2⟩ := R1.step_one (op := .rotate i (some d) .right (.bool true)) (r := .ok .unit)
    (by simp only [astep, hi1, specUpd, specFlag]; simp [h0]; rfl)
  have hi2 : ((s.put i (specRotate xs d .left)).put i
      (specRotate (specRotate xs d .left) d .right)).at? i =
      some (specRotate (specRotate xs d .left) d .right) := by
    rw [at?_put hi1]; simp
  obtain ⟨h3, _⟩ := R2.toList hi2
  simp only [execs, h1, h2, h3, specRotate_undo]

/-- C09: rotating by a multiple of the length changes nothing. -/
theorem C09_rotate_multiple (R : Reach k w s) (hi : s.at? i = some xs) (m : Nat) (dir : Dir) :
    (execs k [.rotate i (some ((m * xs.length : Nat) : Int)) dir (.bool true), .toList i] w).1 =
      [.ok .unit, .ok (.list (xs.map some))] := by
  obtain ⟨h1, h2⟩ := C09_rotate R hi (m * xs.length)
  cases dir with
  | left => rw [h1]; simp
  | right => rw [h2]; simp

example : (execs .cll [.new (nums [1, 2, 3, 4, 5]), .rotate 0 (some 7) .left (.bool true), .toList 0,
    .split 0 (.int 2), .toList 1, .toList 2] (World.init : LWorld)).1 =
    [.ok (.handle 0), .ok .unit,
      .ok (.list [some (.int 3), some (.int 4), some (.int 5), some (.int 1), some (.int 2)]),
      .ok (.handles 1 2), .ok (.list [some (.int 3), some (.int 4)]),
      .ok (.list [some (.int 5), some (.int 1), some (.int 2)])] := by decide +kernel

/-! ## C10: equality -/

/-- C10: `a == b` iff the contents are equal, `a != b` is the negation. -/
theorem C10_eq (R : Reach k w s) (hi : s.at? i = some xs) (hj : s.at? j = some ys) :
    (exec k (.eq i j) w).1 = .ok (.bool (decide (xs = ys))) ∧
    (exec k (.ne i j) w).1 = .ok (.bool (!decide (xs = ys))) := by
  constructor
  · exact (R.step_one (op := .eq i j) (s' := s) (by simp [astep, hi, hj, specRead])).1
  · exact (R.step_one (op := .ne i j) (s' := s) (by simp [astep, hi, hj, specRead])).1

example : (execs .ll [.new (nums [1, 2]), .new (nums [1, 2]), .new (nums [1]), .eq 0 1, .eq 0 2, .ne 2 0]
    (World.init : LWorld)).1 =
    [.ok (.handle 0), .ok (.handle 1), .ok (.handle 2), .ok (.bool true), .ok (.bool false),
      .ok (.bool true)] := by decide +kernel

/-! ## C11: ordering -/

/-- the first position at which the two sequences differ and the operator does not answer `True` -/
def firstBad (op : Val → Val → Except Err Bool) (xs ys : List Val) : Option (Val × Val) :=
  (xs.zip ys).find? (fun p => decide (p.1 ≠ p.2 ∧ op p.1 p.2 ≠ .ok true))

/-- C11: the documented element-wise order.  Positions with equal elements are skipped; the first
other position where the operator is not true decides: `False`, or its `TypeError`; without such a
position the lengths decide. -/
theorem C11_elementwise (R : Reach k w s) (hi : s.at? i = some xs) (hj : s.at? j = some ys) :
    (exec k (.lt i j) w).1 = (match firstBad PyOrd.lt xs ys with
      | some p => (match PyOrd.lt p.1 p.2 with | .error e => .error e | .ok _ => .ok (.bool false))
      | none => .ok (.bool (if ∀ p ∈ xs.zip ys, p.1 = p.2 then decide (xs.length < ys.length)
          else decide (xs.length ≤ ys.length)))) ∧
    (exec k (.le i j) w).1 = (match firstBad PyOrd.le xs ys with
      | some p => (match PyOrd.le p.1 p.2 with | .error e => .error e | .ok _ => .ok (.bool false))
      | none => .ok (.bool (decide (xs.length ≤ ys.length)))) := by
  constructor
  · rw [(R.step_one (op := .lt i j) (s' := s) (by simp only [astep, hi, hj, specRead]; rfl)).1]
    cases hc : firstBad PyOrd.lt xs ys with
    | none => rw [specOrd_none hc]; simp [Except.map]
    | some z =>
      rw [specOrd_some hc]
      simp only
      split <;> rename_i he <;> simp [he, Except.map]
  · rw [(R.step_one (op := .le i j) (s' := s) (by simp only [astep, hi, hj, specRead]; rfl)).1]
    cases hc : firstBad PyOrd.le xs ys with
    | none => rw [specOrd_none hc]; simp [Except.map]
    | some z =>
      rw [specOrd_some hc]
      simp only
      split <;> rename_i he <;> simp [he, Except.map]

/-- C11: `a >= b` gives exactly what `b <= a` gives, exceptions included. -/
theorem C11_ge_le (R : Reach k w s) (hi : s.at? i = some xs) (hj : s.at? j = some ys) :
    (exec k (.ge i j) w).1 = (exec k (.le j i) w).1 := by
  rw [(R.step_one (op := .ge i j) (s' := s) (by simp only [astep, hi, hj, specRead]; rfl)).1,
    (R.step_one (op := .le j i) (s' := s) (by simp only [astep, hi, hj, specRead]; rfl)).1]
  have := specOrd_swap (op := (PyOrd.le : Val → Val → Except Err Bool)) (op' := PyOrd.ge)
    (by intro a b; cases a <;> cases b <;> simp [PyOrd.le, PyOrd.ge, Val.order, eq_comm]) ys xs
    (ys.length ≤ xs.length) (ys.length ≤ xs.length)
  rw [this]

/-- C11: `a <= b` is true iff `a < b` or `a == b` is. -/
theorem C11_le_iff (R : Reach k w s) (hi : s.at? i = some xs) (hj : s.at? j = some ys) :
    (exec k (.le i j) w).1 = .ok (.bool true) ↔
      ((exec k (.lt i j) w).1 = .ok (.bool true) ∨ (exec k (.eq i j) w).1 = .ok (.bool true)) := by
  obtain ⟨h1, h2⟩ := C11_elementwise R hi hj
  rw [h1, h2, (C10_eq R hi hj).1]
  have hb : firstBad PyOrd.lt xs ys = firstBad PyOrd.le xs ys := by
    rw [firstBad, firstBad]
    congr 1
    funext p
    obtain ⟨a, b⟩ := p
    by_cases hab : a = b
    · simp [hab]
    · have : (PyOrd.lt a b : Except Err Bool) = PyOrd.le a b := by
        cases a <;> cases b <;> simp [PyOrd.le, PyOrd.lt, Val.order] <;>
          simp only [Val.int.injEq, Val.str.injEq] at hab
        · omega
        · simp [hab]
      simp [this]
  rw [hb]
  cases hc : firstBad PyOrd.le xs ys with
  | some p =>
    have hbad : p.1 ≠ p.2 ∧ (PyOrd.le p.1 p.2 : Except Err Bool) ≠ .ok true := by
      have := List.find?_some hc
      simpa using this
    have hlt : (PyOrd.lt p.1 p.2 : Except Err Bool) ≠ .ok true := by
      rw [← hb] at hc
      have := List.find?_some hc
      simp at this
      exact this.2
    have hne : xs ≠ ys := by
      rintro rfl
      have hm := List.mem_of_find?_eq_some hc
      have : ∀ (zs : List Val), ∀ p ∈ zs.zip zs, p.1 = p.2 := by
        intro zs
        induction zs with
        | nil => simp
        | cons z zs ih => simpa using fun a b h => ih (a, b) h
      exact hbad.1 (this xs p hm)
    constructor
    · intro h
      simp only at h
      split at h <;> simp at h
    · rintro (h | h)
      · simp only at h
        split at h <;> simp at h
      · simp [hne] at h
  | none =>
    simp only [Except.ok.injEq, Out.bool.injEq, decide_eq_true_eq]
    by_cases hall : ∀ p ∈ xs.zip ys, p.1 = p.2
    · rw [if_pos hall, decide_eq_true_eq]
      constructor
      · intro h
        rcases Nat.lt_or_eq_of_le h with h | h
        · exact Or.inl h
        · right
          exact (zip_all_eq h).1 (by simpa [List.all_eq_true] using fun a b => hall (a, b))
      · rintro (h | rfl)
        · exact Nat.le_of_lt h
        · exact Nat.le_refl _
    · rw [if_neg hall, decide_eq_true_eq]
      constructor
      · exact Or.inl
      · rintro (h | rfl)
        · exact h
        · exact Nat.le_refl _

/-- C11 fails for `>`: `[5, 5] > [1]` is `False` while `[1] < [5, 5]` is `True`. -/
theorem C11_gt_not_dual (k : Kind) :
    (execs k [.new (nums [5, 5]), .new (nums [1]), .gt 0 1, .lt 1 0] (World.init : LWorld)).1 =
      [.ok (.handle 0), .ok (.handle 1), .ok (.bool false), .ok (.bool true)] := by
  cases k <;> decide +kernel

/-- C11, the part of `a > b iff b < a` that holds: lists of equal length (exceptions included).
Missing: lists of different length, where it is false (`C11_gt_not_dual`). -/
theorem C11_gt_lt_partial (R : Reach k w s) (hi : s.at? i = some xs) (hj : s.at? j = some ys)
    (hl : xs.length = ys.length) : (exec k (.gt i j) w).1 = (exec k (.lt j i) w).1 := by
  rw [(R.step_one (op := .gt i j) (s' := s) (by simp only [astep, hi, hj, specRead]; rfl)).1,
    (R.step_one (op := .lt j i) (s' := s) (by simp only [astep, hi, hj, specRead]; rfl)).1]
  have := specOrd_swap (op := (PyOrd.lt : Val → Val → Except Err Bool)) (op' := PyOrd.gt)
    (by intro a b; cases a <;> cases b <;> simp [PyOrd.lt, PyOrd.gt, Val.order]) ys xs
    (ys.length < xs.length) (ys.length ≤ xs.length)
  rw [← this]
  simp only [gt_iff_lt, hl]

example : (execs .ll [.new (nums [1, 5]), .new (nums [1, 7]), .lt 0 1, .gt 1 0, .le 1 0]
    (World.init : LWorld)).1 =
    [.ok (.handle 0), .ok (.handle 1), .ok (.bool true), .ok (.bool true), .ok (.bool false)] := by
  decide +kernel

/-! ## C12: slices -/

/-- C12 fails for a negative step: `LinkedList([1, 2, 3])[::-1]` holds `[1]` only. -/
theorem C12_negative_step (k : Kind) (hk : k ≠ .cll) :
    (execs k [.new (nums [1, 2, 3]), .getItem 0 (.slice none none (some (-1))), .toList 1]
      (World.init : LWorld)).1 =
      [.ok (.handle 0), .ok (.handle 1), .ok (.list [some (.int 1)])] ∧
    specSlice [1, 2, 3] none none (-1) = [3, 2, 1] := by
  cases k with
  | cll => exact absurd rfl hk
  | ll | dll => decide +kernel

/-- C12 for a positive (or omitted) step, any start and stop; a zero step raises `ValueError`.
Missing: negative steps, where the claim is false (`C12_negative_step`), and the circular list, which
rejects slices. -/
theorem C12_slice_partial (hk : k ≠ .cll) (R : Reach k w s) (hi : s.at? i = some xs)
    (start stop step : Option Int) :
    (0 < step.getD 1 → (execs k [.getItem i (.slice start stop step), .toList s.length] w).1 =
      [.ok (.handle s.length), .ok (.list ((specSlice xs start stop (step.getD 1)).map some))]) ∧
    (step = some 0 → (exec k (.getItem i (.slice start stop step)) w).1 = .error .valueError) := by
  constructor
  · intro hs
    obtain ⟨h1, R1⟩ := C06_slice hk R hi start stop step hs
    obtain ⟨h2, _⟩ := R1.toList (at?_append_new _)
    simp only [execs, h1, h2]
  · rintro rfl
    refine (R.step_one (s' := s) ?_).1
    cases k with
    | cll => exact absurd rfl hk
    | ll | dll => simp [astep, hi, specNew, specSliceImpl]

/-- the specification of slices agrees with simple cases of Python's -/
example : specSlice [0, 1, 2, 3, 4, 5] (some 1) (some (-1)) 2 = [1, 3] ∧
    specSlice [0, 1, 2, 3, 4, 5] none (some 3) 1 = [0, 1, 2] ∧
    specSlice [0, 1, 2, 3, 4, 5] (some (-2)) none 1 = [4, 5] ∧
    specSlice [0, 1, 2, 3, 4, 5] none none (-2) = [5, 3, 1] := by decide

/-- a slice with step 1 and bounds inside the list is `drop`/`take` -/
theorem C12_specSlice_step_one (xs : List Val) {a b : Nat} (hab : a ≤ b) (hb : b ≤ xs.length) :
    specSlice xs (some a) (some b) 1 = (xs.drop a).take (b - a) := by
  have h1 : specBound xs.length 0 xs.length 0 (some (a : Int)) = a := by
    simp only [specBound]; omega
  have h2 : specBound xs.length 0 xs.length xs.length (some (b : Int)) = b := by
    simp only [specBound]; omega
  have hp : specSlicePos xs.length (some (a : Int)) (some (b : Int)) 1 = List.range' a (b - a) := by
    apply eq_of_sorted_mem (r := fun x y : Nat => x < y)
    · rw [specSlicePos, if_pos (by omega)]
      exact List.Pairwise.filter _ List.pairwise_lt_range
    · exact List.pairwise_lt_range'
    · intro x
      rw [specSlicePos, if_pos (by omega), List.mem_filter, h1, h2, List.mem_range']
      simp only [List.mem_range, Int.emod_one, and_true, decide_eq_true_eq]
      constructor
      · rintro ⟨h3, h4, h5⟩; exact ⟨x - a, by omega, by omega⟩
      · rintro ⟨m, h3, rfl⟩; omega
  rw [specSlice, hp, range'_pick xs (b - a) a (by omega)]

/-! ## C13: membership -/

/-- C13 for every list reachable without extending a list by itself: `value in ll` terminates and
is true iff some element equals the value.  (`Reach` excludes self-extension, where the claim is
false, see `C13_self_extend_search_diverges`.) -/
theorem C13_contains_partial (R : Reach k w s) (hi : s.at? i = some xs) (v : Val) :
    (exec k (.contains i (some v)) w).1 = .ok (.bool (decide (v ∈ xs))) :=
  (R.step_one (op := .contains i (some v)) (s' := s) (by simp [astep, hi, specRead])).1

/-- C13 fails: once a non-empty `LinkedList` or `DoublyLinkedList` has been extended by itself, its
nodes form a cycle and the search for a value it does not hold runs forever (it exceeds any fuel). -/
theorem C13_self_extend_search_diverges (hk : k ≠ .cll) (R : Reach k w s) (hi : s.at? i = some xs)
    (hne : xs ≠ []) {l : Addr} (hl : w.env[i]? = some l) (v : Val) (hv : v ∉ xs) (fuel : Nat) :
    (exec k (.extend i i) w).1 = .ok .unit ∧
    (exec k (.len i) (exec k (.extend i i) w).2).1 = .ok (.nat (2 * xs.length)) ∧
    (contains k fuel l (some v) (exec k (.extend i i) w).2.heap).1 = .error .diverge := by
  obtain ⟨nsf, I⟩ := R.inv
  have r := I.rep i xs l hi hl
  obtain ⟨h', e, h1, h2, h3⟩ := extend_self hk w.fuel r hne
  have he : exec k (.extend i i) w = (.ok .unit, ⟨h', w.env⟩) := by
    simp [exec, World.run, run_bind, w.addr_run hl, e]
  have hns : nsf i ≠ [] := by
    intro h; have := r.length_eq; rw [h] at this
    exact hne (List.eq_nil_of_length_eq_zero this.symm)
  rw [he]
  refine ⟨rfl, ?_, ?_⟩
  · simp [exec, World.run, run_bind, World.addr_run ⟨h', w.env⟩ hl, llLen, h1]
  · obtain ⟨m, ms, hm⟩ := List.exists_cons_of_ne_nil hns
    have hlen : (h'.lobj l).length ≠ 0 := by
      rw [h1]; have := List.length_pos_iff.2 hne; omega
    have hd := searchLoop_diverges (h := h') (v := v) (S := (· ∈ nsf i)) (by
      intro a ha
      obtain ⟨h4, b, h5, h6⟩ := h3 a ha
      obtain ⟨z, hz, h7⟩ := r.data_of_mem ha
      refine ⟨?_, b, h6, h5⟩
      rw [h4, h7]
      rintro h; injection h with h; exact hv (h ▸ hz)) fuel m (by rw [hm]; simp)
    rw [hm] at h2
    cases k with
    | cll => exact absurd rfl hk
    | ll | dll =>
      simp only [contains, run_bind, run_getList, hlen, if_false, h2, List.head?_cons, hd]

/-- Related: extending a non-empty `CircularLinkedList` by itself never ends. -/
theorem C13_self_extend_diverges (R : Reach .cll w s) (hi : s.at? i = some xs) (hne : xs ≠ [])
    {l : Addr} (hl : w.env[i]? = some l) (fuel : Nat) :
    (extend .cll fuel l l w.heap).1 = .error .diverge := by
  obtain ⟨nsf, I⟩ := R.inv
  obtain ⟨h', e⟩ := extendCLL_self fuel (I.rep i xs l hi hl) hne
  rw [e]

example : (execs .ll [.new (nums [1, 2]), .contains 0 (some (.int 2)), .contains 0 (some (.int 3)),
    .extend 0 0, .len 0, .contains 0 (some (.int 2)), .contains 0 (some (.int 3))]
    (World.init : LWorld)).1 =
    [.ok (.handle 0), .ok (.bool true), .ok (.bool false), .ok .unit, .ok (.nat 4), .ok (.bool true),
      .error .diverge] := by decide +kernel

/-! ## C14: newlines -/

/-- C14: no string held by a list contains a newline. -/
theorem C14_no_newline (R : Reach k w s) (hi : s.at? i = some xs) {c : List Char}
    (hc : Val.str c ∈ xs) : '\n' ∉ c := by
  obtain ⟨nsf, I⟩ := R.inv
  obtain ⟨l, _, r⟩ := I.addr hi
  have h1 : Val.norm (.str c) = .str c := r.normed _ hc
  simp only [Val.norm, Val.str.injEq] at h1
  rw [← h1]
  exact newline_not_mem_escape c

/-- C14: storing a string stores it with each newline replaced by backslash-n and nothing else
changed; storing the stored string again does not change it. -/
theorem C14_stored (R : Reach k w s) (hi : s.at? i = some xs) (c : List Char) :
    (execs k [.addEnd i (.val (.str c)), .toList i] w).1 =
      [.ok .unit, .ok (.list (xs.map some ++ [some (.str (c.flatMap
        (fun ch => if ch = '\n' then ['\\', 'n'] else [ch])))]))] ∧
    escapeNewlines (escapeNewlines c) = escapeNewlines c := by
  have hf : c.flatMap (fun ch => if ch = '\n' then ['\\', 'n'] else [ch]) = escapeNewlines c := by
    induction c with
    | nil => rfl
    | cons ch cs ih =>
      rw [List.flatMap_cons, ih, escapeNewlines]
      split <;> rfl
  refine ⟨?_, escape_escape c⟩
  rw [hf]
  obtain ⟨h1, R1⟩ := R.step_one (op := .addEnd i (.val (.str c))) (r := .ok .unit)
    (s' := s.put i (xs ++ [.str (escapeNewlines c)]))
    (by simp only [astep, hi, specItem, Except.map, specUpd]; rfl)
  have hi' : (s.put i (xs ++ [.str (escapeNewlines c)])).at? i =
      some (xs ++ [.str (escapeNewlines c)]) := by rw [at?_put hi]; simp
  obtain ⟨h2, _⟩ := R1.toList hi'
  simp only [execs, h1, h2, List.map_append, List.map_cons, List.map_nil]

/-- A consequence: a string with a newline that was stored is not found again by `in`. -/
theorem C14_stored_newline_not_found (R : Reach k w s) (hi : s.at? i = some xs) {c : List Char}
    (hc : '\n' ∈ c) : (exec k (.contains i (some (.str c))) w).1 = .ok (.bool false) := by
  rw [C13_contains_partial R hi]
  have : Val.str c ∉ xs := fun h => C14_no_newline R hi h hc
  simp [this]

example : (execs .ll [.new [.val (.str ['a', '\n'])], .contains 0 (some (.str ['a', '\n'])), .toList 0]
    (World.init : LWorld)).1 =
    [.ok (.handle 0), .ok (.bool false), .ok (.list [some (.str ['a', '\\', 'n'])])] := by
  decide +kernel

end Extra
