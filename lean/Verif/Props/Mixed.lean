import Mathlib.Data.List.InsertIdx
import Verif.Lists.MixedStart

/-!
# C100: a `LinkedList()` made from a list of another class

The claim: a `LinkedList()` made from a `DoublyLinkedList()` or a `CircularLinkedList()`, or extended
by one, is a `LinkedList()` of the same items — every call on it gives what it gives on a Python list of
these items.

`DoublyLinkedList` and `CircularLinkedList` are subclasses of `LinkedList`, so the constructor and
`extend` take the *nodes* of the other list.  A `DoublyNode()` refuses to point at the `Node()`s that a
`LinkedList()` makes, and the search of `in` runs round the circle.
-/

set_option linter.unusedSectionVars false

namespace Extra
variable {V : Type} [PyData V]

/-! ## Specification: a Python list -/

/-- what a call gives on a Python list (items are stored with newlines escaped) -/
def plainCall : XOp V → List V → Except Err Unit × List V
  | .addFront it, xs =>
    match validateItem it with
    | .error e => (.error e, xs)
    | .ok v => (.ok (), PyData.norm v :: xs)
  | .addEnd it, xs =>
    match validateItem it with
    | .error e => (.error e, xs)
    | .ok v => (.ok (), xs ++ [PyData.norm v])
  | .insert i it, xs =>
    match placeOf xs.length i, validateItem it with
    | .error e, _ => (.error e, xs)
    | _, .error e => (.error e, xs)
    | .ok i, .ok v => (.ok (), xs.insertIdx i (PyData.norm v))
  | .setItem i it, xs =>
    match placeOf xs.length i with
    | .error e => (.error e, xs)
    | .ok i =>
      if i = xs.length then (.error .indexError, xs)
      else match validateItem it with
        | .error e => (.error e, xs)
        | .ok v => (.ok (), xs.set i (PyData.norm v))
  | .delItem i, xs =>
    match placeOf xs.length i with
    | .error e => (.error e, xs)
    | .ok i => if i = xs.length then (.error .indexError, xs) else (.ok (), xs.eraseIdx i)
  | .removeFront, xs => (.ok (), xs.tail)
  | .removeEnd, xs => (.ok (), xs.dropLast)
  | .remove it all, xs =>
    match all, validateItem it with
    | none, _ => (.error .typeError, xs)
    | some _, .error e => (.error e, xs)
    | some true, .ok v => (.ok (), xs.filter (fun x => decide (x ≠ v)))
    | some false, .ok v => (.ok (), xs.erase v)
  | .clear, _ => (.ok (), [])

/-- a run of calls on a Python list -/
def plainCalls : List (XOp V) → List V → List (Except Err Unit) × List V
  | [], xs => ([], xs)
  | op :: ops, xs =>
    let (r, xs1) := plainCall op xs
    let (rs, xs2) := plainCalls ops xs1
    (r :: rs, xs2)

/-- the place at which a call puts a new item, if it gets so far -/
def newPlace (n : Nat) : XOp V → Option Nat
  | .addFront (.val _) => some 0
  | .addEnd (.val _) => some n
  | .insert i (.val _) => (placeOf n i).toOption
  | _ => none

/-- the call puts a new item behind one that sits in a `DoublyNode()` -/
def putsBehindDoubly (ms : List (V × Bool)) (op : XOp V) : Bool :=
  match newPlace ms.length op with
  | some i => refuses ms i
  | none => false

/-- the call puts no item anywhere but at the front -/
def XOp.frontOnly : XOp V → Bool
  | .addEnd _ => false
  | .insert i _ => decide (i = .int 0)
  | _ => true

/-! ## What the marked lists of items give on the items -/

private theorem frontGone_fst (ms : List (V × Bool)) :
    (frontGone ms).map (·.1) = (ms.map (·.1)).tail := by
  rcases ms with _ | ⟨z, _ | ⟨⟨y, d⟩, t⟩⟩ <;> simp [frontGone]

private theorem goneAt_fst (i : Nat) (ms : List (V × Bool)) :
    (goneAt i ms).map (·.1) = (ms.map (·.1)).eraseIdx i := by
  by_cases hi : i = 0
  · subst hi
    rw [goneAt, if_pos rfl, frontGone_fst]
    cases ms <;> simp
  · rw [goneAt, if_neg hi, List.eraseIdx_map]

private theorem goneFirst_fst (v : V) (ms : List (V × Bool)) :
    (goneFirst v ms).map (·.1) = (ms.map (·.1)).erase v := by
  cases ms with
  | nil => rfl
  | cons z t =>
    by_cases hz : z.1 = v
    · rw [goneFirst, if_pos hz, frontGone_fst]
      simp [hz]
    · rw [goneFirst, if_neg hz]
      have : ∀ t : List (V × Bool), (t.eraseP (fun z => decide (z.1 = v))).map (·.1)
          = (t.map (·.1)).erase v := by
        intro t
        induction t with
        | nil => rfl
        | cons y t ih =>
          by_cases hy : y.1 = v
          · simp [hy]
          · simp [hy, ih]
      simp [hz, this]

private theorem goneAll_fst (v : V) (ms : List (V × Bool)) :
    (goneAll v ms).map (·.1) = (ms.map (·.1)).filter (fun x => decide (x ≠ v)) := by
  have hf : ∀ t : List (V × Bool), (t.filter (fun z => decide (z.1 ≠ v))).map (·.1)
      = (t.map (·.1)).filter (fun x => decide (x ≠ v)) := by
    intro t; rw [List.filter_map]; rfl
  have hd : ∀ t : List (V × Bool), (t.dropWhile (fun z => decide (z.1 = v))).filter
      (fun z => decide (z.1 ≠ v)) = t.filter (fun z => decide (z.1 ≠ v)) := by
    intro t
    induction t with
    | nil => rfl
    | cons y t ih =>
      by_cases hy : y.1 = v
      · simpa [hy] using ih
      · simp [hy]
  rw [← hf, ← hd ms, goneAll]
  cases hm : ms.dropWhile (fun z => decide (z.1 = v)) with
  | nil => rfl
  | cons y t =>
    have hy : y.1 ≠ v := by
      have := List.head_dropWhile_not (fun z : V × Bool => decide (z.1 = v)) (l := ms) (by simp [hm])
      simpa [hm] using this
    simp [hy]

private theorem putAt_fst {i : Nat} {v : V} {ms : List (V × Bool)} (hr : refuses ms i = false) :
    (putAt i v ms).1 = .ok () ∧
      (putAt i v ms).2.map (·.1) = (ms.map (·.1)).insertIdx i (PyData.norm v) := by
  rw [putAt, hr]
  exact ⟨rfl, by simp [List.map_insertIdx]⟩

private theorem putAt_refused {i : Nat} {v : V} {ms : List (V × Bool)} (hr : refuses ms i = true) :
    putAt i v ms = (.error .typeError, ms) := by
  rw [putAt, if_pos hr]

private theorem mixCall_plain (op : XOp V) (ms : List (V × Bool)) :
    if putsBehindDoubly ms op = true then mixCall op ms = (.error .typeError, ms)
    else (mixCall op ms).1 = (plainCall op (ms.map (·.1))).1 ∧
      (mixCall op ms).2.map (·.1) = (plainCall op (ms.map (·.1))).2 := by
  have hput : ∀ (i : Nat) (v : V) (op : XOp V), newPlace ms.length op = some i →
      if putsBehindDoubly ms op = true then putAt i v ms = (.error .typeError, ms)
      else (putAt i v ms).1 = .ok () ∧
        (putAt i v ms).2.map (·.1) = (ms.map (·.1)).insertIdx i (PyData.norm v) := by
    intro i v op hp
    simp only [putsBehindDoubly, hp]
    cases hr : refuses ms i with
    | true => simpa using putAt_refused hr
    | false => simpa using putAt_fst hr
  cases op with
  | addFront it =>
    cases it with
    | none => simp [putsBehindDoubly, newPlace, mixCall, plainCall, validateItem]
    | extra => simp [putsBehindDoubly, newPlace, mixCall, plainCall, validateItem]
    | val v => simpa [mixCall, plainCall, validateItem] using hput 0 v (.addFront (.val v)) rfl
  | addEnd it =>
    cases it with
    | none => simp [putsBehindDoubly, newPlace, mixCall, plainCall, validateItem]
    | extra => simp [putsBehindDoubly, newPlace, mixCall, plainCall, validateItem]
    | val v =>
      have hx : (ms.map (·.1)).insertIdx ms.length (PyData.norm v)
          = ms.map (·.1) ++ [PyData.norm v] := by
        have := insertIdx_append (ms.map (·.1)) [] (PyData.norm v)
        simpa using this
      have := hput ms.length v (.addEnd (.val v)) rfl
      rw [hx] at this
      exact this
  | insert i it =>
    cases hp : placeOf ms.length i with
    | error e =>
      have hb : putsBehindDoubly ms (.insert i it) = false := by
        cases it <;> simp [putsBehindDoubly, newPlace, hp, Except.toOption]
      rw [if_neg (by simp [hb])]
      simp [mixCall, plainCall, hp]
    | ok j =>
      cases it with
      | none => simp [putsBehindDoubly, newPlace, mixCall, plainCall, validateItem, hp]
      | extra => simp [putsBehindDoubly, newPlace, mixCall, plainCall, validateItem, hp]
      | val v =>
        have := hput j v (.insert i (.val v)) (by simp [newPlace, hp, Except.toOption])
        simpa [mixCall, plainCall, hp, validateItem] using this
  | setItem i it =>
    rw [if_neg (by simp [putsBehindDoubly, newPlace])]
    simp only [mixCall, plainCall, List.length_map]
    cases hp : placeOf ms.length i with
    | error e => simp
    | ok j =>
      by_cases hj : j = ms.length
      · simp [hj]
      · cases hv : validateItem it with
        | error e => simp [hj]
        | ok v =>
          simp only [hj, if_false, true_and]
          have hjl : j ≤ ms.length := by
            cases i with
            | slice s t u => cases hp
            | other => cases hp
            | int i =>
              simp only [placeOf] at hp
              by_cases hi : 0 ≤ i ∧ i ≤ (ms.length : Int)
              · rw [if_pos hi] at hp; cases hp; omega
              · rw [if_neg hi] at hp; cases hp
          apply List.ext_getElem?
          intro m
          simp only [List.getElem?_map, List.getElem?_modify, List.getElem?_set, List.length_map]
          by_cases hm : j = m
          · subst hm
            have : j < ms.length := by omega
            simp [this]
          · simp [hm]
  | delItem i =>
    rw [if_neg (by simp [putsBehindDoubly, newPlace])]
    simp only [mixCall, plainCall, List.length_map]
    cases hp : placeOf ms.length i with
    | error e => simp
    | ok j =>
      by_cases hj : j = ms.length
      · simp [hj]
      · simp [hj, goneAt_fst]
  | removeFront =>
    rw [if_neg (by simp [putsBehindDoubly, newPlace])]
    exact ⟨rfl, frontGone_fst ms⟩
  | removeEnd =>
    rw [if_neg (by simp [putsBehindDoubly, newPlace])]
    refine ⟨rfl, ?_⟩
    show (goneAt (ms.length - 1) ms).map (·.1) = (ms.map (·.1)).dropLast
    rw [goneAt_fst]
    have := List.eraseIdx_length_sub_one (l := ms.map (·.1))
    simpa using this
  | remove it all =>
    rw [if_neg (by simp [putsBehindDoubly, newPlace])]
    cases all with
    | none => exact ⟨rfl, rfl⟩
    | some all =>
      cases it with
      | none => cases all <;> exact ⟨rfl, rfl⟩
      | extra => cases all <;> exact ⟨rfl, rfl⟩
      | val v =>
        cases all
        · exact ⟨rfl, goneFirst_fst v ms⟩
        · exact ⟨rfl, goneAll_fst v ms⟩
  | clear =>
    rw [if_neg (by simp [putsBehindDoubly, newPlace])]
    exact ⟨rfl, rfl⟩

private theorem frontOnly_not_refused (ms : List (V × Bool)) {op : XOp V}
    (hf : op.frontOnly = true) : putsBehindDoubly ms op = false := by
  cases op with
  | addFront it => cases it <;> simp [putsBehindDoubly, newPlace, refuses]
  | addEnd it => cases hf
  | insert i it =>
    have hi : i = .int 0 := by simpa [XOp.frontOnly] using hf
    subst hi
    cases it <;> simp [putsBehindDoubly, newPlace, placeOf, Except.toOption, refuses]
  | _ => rfl

private theorem mixCalls_frontOnly : ∀ (ops : List (XOp V)) (ms : List (V × Bool)),
    (∀ op ∈ ops, op.frontOnly = true) →
    (mixCalls ops ms).1 = (plainCalls ops (ms.map (·.1))).1 ∧
      (mixCalls ops ms).2.map (·.1) = (plainCalls ops (ms.map (·.1))).2
  | [], ms, _ => ⟨rfl, rfl⟩
  | op :: ops, ms, hf => by
    have h1 := mixCall_plain op ms
    rw [if_neg (by simp [frontOnly_not_refused ms (hf op (by simp))])] at h1
    have h2 := mixCalls_frontOnly ops (mixCall op ms).2 (fun o ho => hf o (by simp [ho]))
    rw [h1.2] at h2
    simp only [mixCalls, plainCalls]
    exact ⟨by rw [h1.1, h2.1], h2.2⟩

/-! ## `DoublyNode()`s in a `LinkedList()` -/

/-- C100, exactly: on a `LinkedList()` whose items sit in nodes of either class, every call gives what it
gives on a Python list — except that a call which would put a new item behind a `DoublyNode()` raises
`TypeError` and changes nothing. -/
theorem C100_call_exact {h : Heap V Bool} {l : Nat} {ns : List Nat} {ms : List (V × Bool)}
    (r : MixRep h l ns ms) (op : XOp V) :
    ∃ h' ns' ms', MixRep h' l ns' ms' ∧
      (if putsBehindDoubly ms op = true then xStep l op h = (.error .typeError, h') ∧ ms' = ms
      else xStep l op h = ((plainCall op (ms.map (·.1))).1, h') ∧
        ms'.map (·.1) = (plainCall op (ms.map (·.1))).2) := by
  obtain ⟨h', ns', e, r'⟩ := xStep_mix r op
  have hm := mixCall_plain op ms
  refine ⟨h', ns', _, r', ?_⟩
  split
  · rename_i hb
    rw [if_pos hb] at hm
    rw [e, hm]
    exact ⟨rfl, rfl⟩
  · rename_i hb
    rw [if_neg hb] at hm
    rw [e, hm.1]
    exact ⟨rfl, hm.2⟩

/-- C100: every run of calls on a `LinkedList()` with nodes of either class follows the specification on
marked lists of items, and at the end `to_list()`, `len`, `in` and `ll[i]` report its items. -/
theorem C100_history {h : Heap V Bool} {l : Nat} {ns : List Nat} {ms : List (V × Bool)}
    (r : MixRep h l ns ms) (ops : List (XOp V)) :
    ∃ h', xSteps l ops h = ((mixCalls ops ms).1, h') ∧
      toList l h' = (.ok (((mixCalls ops ms).2.map (·.1)).map some), h') ∧
      llLen l h' = (.ok (mixCalls ops ms).2.length, h') ∧
      (∀ v fuel, (mixCalls ops ms).2.length ≤ fuel →
        contains .ll fuel l (some v) h' = (.ok (decide (v ∈ (mixCalls ops ms).2.map (·.1))), h')) ∧
      ∀ (i : Nat) (hi : i < (mixCalls ops ms).2.length),
        getItem .ll l (.int i) h' = (.ok (some ((mixCalls ops ms).2[i]).1), h') := by
  obtain ⟨h', ns', e, r'⟩ := xSteps_mix ops r
  refine ⟨h', e, toList_spec r'.rep, by rw [llLen_spec r'.rep, List.length_map], fun v fuel hf => ?_,
    fun i hi => ?_⟩
  · rw [contains_spec r'.rep (by simpa using hf)]
    simp
  · rw [getItem_ok r'.rep (i := i) (j := i) (by simpa using hi) (Or.inl ⟨by omega, rfl⟩)]
    simp

/-- C100, where it stands: `ll = LinkedList(dll)` starts with all items in `DoublyNode()`s. -/
theorem C100_from_doubly {items : List (Item V)} {vs : List V}
    (hv : items.mapM validateItem = .ok vs) (h : Heap V Bool) :
    ∃ h' l ns, (do let d ← xMakeDoubly items; initAlias .ll d) h = (.ok l, h') ∧
      MixRep h' l ns (vs.map (fun v => (PyData.norm v, true))) := by
  obtain ⟨h1, d, ns, e1, r1, _⟩ := xMakeDoubly_mix hv h
  obtain ⟨h2, e2, r2⟩ := initAlias_mix r1
  exact ⟨h2, _, ns, by rw [run_bind_ok e1]; exact e2, r2⟩

/-- C100, the part that holds: as long as items are put in at the front only, every run of calls on
`LinkedList(dll)` gives what it gives on a Python list of the items.  Missing: calls that put an item
elsewhere, which raise (`C100_add_end_raises`). -/
theorem C100_front_partial {items : List (Item V)} {vs : List V}
    (hv : items.mapM validateItem = .ok vs) (h : Heap V Bool) (ops : List (XOp V))
    (hf : ∀ op ∈ ops, op.frontOnly = true) :
    ∃ h1 l h2, (do let d ← xMakeDoubly items; initAlias .ll d) h = (.ok l, h1) ∧
      xSteps l ops h1 = ((plainCalls ops (vs.map PyData.norm)).1, h2) ∧
      toList l h2 = (.ok ((plainCalls ops (vs.map PyData.norm)).2.map some), h2) := by
  obtain ⟨h1, l, ns, e1, r1⟩ := C100_from_doubly hv h
  obtain ⟨h2, e2, t2, _⟩ := C100_history r1 ops
  have hm := mixCalls_frontOnly ops (vs.map (fun v => (PyData.norm v, true))) hf
  have hx : (vs.map (fun v => (PyData.norm v, true))).map (·.1) = vs.map PyData.norm := by
    simp [Function.comp_def]
  rw [hx] at hm
  exact ⟨h1, l, h2, e1, by rw [e2, hm.1], by rw [t2, hm.2]⟩

/-- C100 fails: `add_end` on `LinkedList(dll)` raises `TypeError` for every `DoublyLinkedList()` that is
not empty and every item that could be stored; and so does `insert` at any place but the front.  Nothing
changes. -/
theorem C100_add_end_raises {items : List (Item V)} {vs : List V}
    (hv : items.mapM validateItem = .ok vs) (hne : vs ≠ []) (h : Heap V Bool) (v : V) {i : Nat}
    (hi : 1 ≤ i ∧ i ≤ vs.length) :
    ∃ h1 l h2 h3, (do let d ← xMakeDoubly items; initAlias .ll d) h = (.ok l, h1) ∧
      xAddEnd l (.val v) h1 = (.error .typeError, h2) ∧
      xInsert l (.int i) (.val v) h1 = (.error .typeError, h3) ∧
      toList l h2 = (.ok ((vs.map PyData.norm).map some), h2) ∧
      toList l h3 = (.ok ((vs.map PyData.norm).map some), h3) := by
  obtain ⟨h1, l, ns, e1, r1⟩ := C100_from_doubly hv h
  have hx : (vs.map (fun v => (PyData.norm v, true))).map (·.1) = vs.map PyData.norm := by
    simp [Function.comp_def]
  have hrf : ∀ j : Nat, 1 ≤ j → j ≤ vs.length →
      refuses (vs.map (fun v => (PyData.norm v, true))) j = true := by
    intro j h1 h2
    have : j - 1 < vs.length := by omega
    simp [refuses, this]
    omega
  have hb1 : putsBehindDoubly (vs.map (fun v => (PyData.norm v, true))) (.addEnd (.val v)) = true := by
    simp only [putsBehindDoubly, newPlace, List.length_map]
    exact hrf _ (List.length_pos_of_ne_nil hne) (Nat.le_refl _)
  have hb2 : putsBehindDoubly (vs.map (fun v => (PyData.norm v, true)))
      (.insert (.int i) (.val v)) = true := by
    have h5 : (0 : Int) ≤ (i : Int) ∧ (i : Int) ≤ (vs.length : Int) := by omega
    simp only [putsBehindDoubly, newPlace, List.length_map, placeOf, if_pos h5, Except.toOption,
      Int.toNat_natCast]
    exact hrf i hi.1 hi.2
  obtain ⟨h2, ns2, ms2, r2, c2⟩ := C100_call_exact r1 (.addEnd (.val v))
  obtain ⟨h3, ns3, ms3, r3, c3⟩ := C100_call_exact r1 (.insert (.int i) (.val v))
  rw [if_pos hb1] at c2
  rw [if_pos hb2] at c3
  obtain ⟨c2, rfl⟩ := c2
  obtain ⟨c3, rfl⟩ := c3
  refine ⟨h1, l, h2, h3, e1, c2, c3, ?_, ?_⟩
  · rw [toList_spec r2.rep, hx]
  · rw [toList_spec r3.rep, hx]

/-- C100, exactly, for `ll.extend(other)` with an `other` that may hold nodes of either class, such as a
`DoublyLinkedList()`: it raises `TypeError`, with nothing changed, if and only if the last item of `ll` is
in a `DoublyNode()` and the first of `other` is not; otherwise `ll` then holds the items of both. -/
theorem C100_extend_exact {h : Heap V Bool} {l o : Nat} {ns ns' : List Nat} {ms ms' : List (V × Bool)}
    (r : MixRep h l ns ms) (ro : MixRep h o ns' ms') (hd : ∀ a ∈ ns, a ∉ ns') (hlo : l ≠ o) :
    if (ms.getLast?.map (·.2)).getD false = true ∧ (ms'.head?.map (·.2)).getD true = false then
      xExtend l o h = (.error .typeError, h)
    else ∃ h', xExtend l o h = (.ok (), h') ∧ MixRep h' l (ns ++ ns') (ms ++ ms') ∧
      toList l h' = (.ok ((ms.map (·.1) ++ ms'.map (·.1)).map some), h') := by
  have := xExtend_mix r ro hd hlo
  split
  · rename_i hc
    rwa [if_pos hc] at this
  · rename_i hc
    rw [if_neg hc] at this
    obtain ⟨h', e, r'⟩ := this
    exact ⟨h', e, r', by rw [toList_spec r'.rep, List.map_append]⟩

/-! ## Circular chains in a `LinkedList()` -/

/-- C100, exactly, for `ll = LinkedList(cll)`, `cll` not empty: `to_list()` and `len` are right, and
`v in ll` is `True` for an item — but the search for anything else never ends. -/
theorem C100_from_circular {X : Type} [Inhabited X] {h : Heap V X} {c : Nat} {ns : List Nat}
    {xs : List V} (r : Rep .cll h c ns xs) (hne : xs ≠ []) :
    ∃ h' l, initAlias .ll c h = (.ok l, h') ∧ toList l h' = (.ok (xs.map some), h') ∧
      llLen l h' = (.ok xs.length, h') ∧
      (∀ v ∈ xs, ∀ fuel, xs.length ≤ fuel → contains .ll fuel l (some v) h' = (.ok true, h')) ∧
      (∀ v, v ∉ xs → ∀ fuel, contains .ll fuel l (some v) h' = (.error .diverge, h')) := by
  obtain ⟨h', e, e1, L⟩ := initAlias_looped r hne
  exact ⟨h', _, e1, L.toList, by simp [llLen, run_bind, L.len, L.src.length_eq],
    fun v hv fuel hf => L.found hv hf, fun v hv fuel => L.missing hv fuel⟩

/-- C100, exactly, for `ll.extend(cll)`, `cll` not empty: `ll` then holds the items of both, and the search
for anything else never ends. -/
theorem C100_extend_circular {h : Heap V Bool} {l c : Nat} {ns ns' : List Nat} {xs ys : List V}
    (r : Rep .ll h l ns xs) (hx : ∀ a ∈ ns, (h.node a).ext = false) (rc : Rep .cll h c ns' ys)
    (hd : ∀ a ∈ ns, a ∉ ns') (hne : ys ≠ []) :
    ∃ h', xExtend l c h = (.ok (), h') ∧ toList l h' = (.ok ((xs ++ ys).map some), h') ∧
      (∀ v ∈ xs ++ ys, ∀ fuel, (xs ++ ys).length ≤ fuel →
        contains .ll fuel l (some v) h' = (.ok true, h')) ∧
      (∀ v, v ∉ xs ++ ys → ∀ fuel, contains .ll fuel l (some v) h' = (.error .diverge, h')) := by
  obtain ⟨h', e, e1, L⟩ := xExtend_looped r hx rc hd hne
  exact ⟨h', e1, L.toList, fun v hv fuel hf => L.found hv hf, fun v hv fuel => L.missing hv fuel⟩

/-! ## Comparisons -/

/-- C100: a comparison of two lists is refused with `TypeError` if and only if they are of different
classes — even if they hold the same items, and whichever stands on the left; so is every comparison with
something that is no list of this library. -/
theorem C100_compare (a b : ListClass) (hab : ¬ (a = .other ∧ b = .other)) :
    compareRaises a b = some (decide (a ≠ b)) := by
  cases a <;> cases b <;> first | rfl | exact absurd ⟨rfl, rfl⟩ hab

/-- C100: `extend` takes lists of its own class, a `LinkedList()` those of the other two classes as well;
it refuses everything else with `TypeError`. -/
theorem C100_extend_refused (a b : ListClass) (ha : a ≠ .other) :
    extendRaises a b = false ↔ b = a ∨ (a = .ll ∧ b ≠ .other) := by
  cases a <;> cases b <;> simp_all [extendRaises, ListClass.sub]

/-! ## Concrete cases -/

private def int (n : Int) : Item Val := .val (.int n)

/-- `ll = LinkedList(DoublyLinkedList([1, 2]))`, then a run of calls, then `to_list()` -/
private def demo (ops : List (XOp Val)) : List (Except Err Unit) × Except Err (List (Option Val)) :=
  match (do let d ← xMakeDoubly [int 1, int 2]; initAlias .ll d) (Heap.empty : Heap Val Bool) with
  | (.error e, _) => ([.error e], .error e)
  | (.ok l, h) => ((xSteps l ops h).1, (toList l (xSteps l ops h).2).1)

/-- C100 fails: `ll.add_end(3)` and `ll.insert(1, 3)` raise `TypeError` on
`ll = LinkedList(DoublyLinkedList([1, 2]))`; `ll.add_front(3)` works, and behind the new `Node()` so does
`ll.insert(1, 4)`, but not `ll.insert(3, 5)`. -/
theorem C100_doubly_fails :
    demo [.addEnd (int 3), .insert (.int 1) (int 3), .addFront (int 3), .insert (.int 1) (int 4),
      .insert (.int 3) (int 5)] =
    ([.error .typeError, .error .typeError, .ok (), .ok (), .error .typeError],
      .ok [some (.int 3), some (.int 4), some (.int 1), some (.int 2)]) := by decide +kernel

/-- C100 fails: `9 in LinkedList(CircularLinkedList([1, 2]))` does not end, though
`9 in CircularLinkedList([1, 2])` is `False`. -/
theorem C100_circular_fails (fuel : Nat) :
    ((do
      let c ← initFrom .cll [int 1, int 2]
      let l ← initAlias .ll c
      let a ← contains .cll fuel c (some (.int 9))
      let b ← contains .ll fuel l (some (.int 9))
      M.pure (a, b)) (Heap.empty : Heap Val Unit)).1 = .error .diverge ∧
    ((do
      let c ← initFrom .cll [int 1, int 2]
      contains .cll fuel c (some (.int 9))) (Heap.empty : Heap Val Unit)).1 = .ok false := by
  have := initFrom_spec .cll [int 1, int 2] (Heap.empty : Heap Val Unit)
  have hv : [int 1, int 2].mapM validateItem = .ok [Val.int 1, Val.int 2] := rfl
  rw [hv] at this
  obtain ⟨h1, c, ns, e1, b1⟩ := this
  have hn : [Val.int 1, Val.int 2].map PyData.norm = [Val.int 1, Val.int 2] := rfl
  have r1 := b1.rep
  rw [hn] at r1
  have hc : ∀ {h2 : Heap Val Unit}, Rep .cll h2 c ns [Val.int 1, Val.int 2] →
      contains .cll fuel c (some (.int 9)) h2 = (.ok false, h2) := by
    intro h2 r2
    simp only [contains, run_bind, run_getList, r2.len]
    rw [anyLoop_spec (some (.int 9)) ns r2.src r2.head]
    rfl
  obtain ⟨h2, l, e2, _, _, _, m2⟩ := C100_from_circular r1 (by simp)
  obtain ⟨h2', e2', hN, _, n2, _, _, hL⟩ := initAlias_ll h1 c r1.lbound
  have hh : h2' = h2 ∧ l = h1.nLists := by
    rw [e2] at e2'; simp at e2'; exact ⟨e2'.2.symm, e2'.1⟩
  obtain ⟨rfl, rfl⟩ := hh
  have r2 : Rep .cll h2' c ns [Val.int 1, Val.int 2] :=
    r1.frame (S := fun _ => False) (L := fun _ => False)
      ⟨fun a _ _ => by rw [hN], fun a ha _ => hL a ha, by omega, by omega⟩ (by simp) (by simp)
  constructor
  · rw [run_bind_ok e1, run_bind_ok e2, run_bind_ok (hc r2)]
    rw [run_bind_err (m2 (.int 9) (by decide) fuel)]
  · rw [run_bind_ok e1, hc r1]

/-- a run in which all goes well: removals and replacements anywhere, new items at the front -/
example : demo [.addFront (int 7), .setItem (.int 2) (int 8), .delItem (.int 1), .removeEnd,
      .remove (int 7) (some true)] =
    ([.ok (), .ok (), .ok (), .ok (), .ok ()], .ok []) := by decide +kernel

/-- `remove_front` keeps the first *node*: after `add_front(3)` and `remove_front()` the first item is in a
`Node()`, so that `insert(1, 5)` works -/
example : demo [.addFront (int 3), .removeFront, .insert (.int 1) (int 5)] =
    ([.ok (), .ok (), .ok ()], .ok [some (.int 1), some (.int 5), some (.int 2)]) := by decide +kernel

/-- the specification gives the same -/
example : mixCalls [.addFront (int 3), .removeFront, .insert (.int 1) (int 5), .insert (.int 3) (int 6)]
      [(Val.int 1, true), (Val.int 2, true)] =
    ([.ok (), .ok (), .ok (), .error .typeError],
      [(Val.int 1, false), (Val.int 5, false), (Val.int 2, true)]) := by decide +kernel

/-- `ll.extend(dll)`, then `add_end`, which raises, and `add_front`, which works; then an ordinary
`LinkedList()` cannot be appended -/
example : ((do
      let l ← initFrom .ll [int 1]
      let d ← xMakeDoubly [int 2, int 3]
      xExtend l d
      let e : Except Err Unit ← fun h => let (r, h') := xAddEnd l (int 4) h; (.ok r, h')
      xAddFront l (int 0)
      let m ← initFrom .ll [int 9]
      let e' : Except Err Unit ← fun h => let (r, h') := xExtend l m h; (.ok r, h')
      let xs ← toList l
      M.pure (e, e', xs)) (Heap.empty : Heap Val Bool)).1 =
    .ok (.error .typeError, .error .typeError,
      [some (.int 0), some (.int 1), some (.int 2), some (.int 3)]) := by decide +kernel

/-- the hypotheses of `C100_call_exact` and `C100_extend_exact` hold of lists that exist -/
example : ∃ (h : Heap Val Bool) (l : Nat) (ns : List Nat),
    MixRep h l ns [(.int 1, true), (.int 2, true)] := by
  obtain ⟨h, l, ns, _, r⟩ := C100_from_doubly (items := [int 1, int 2])
    (vs := [.int 1, .int 2]) rfl (Heap.empty : Heap Val Bool)
  exact ⟨h, l, ns, r⟩

end Extra
