import Verif.Lists.QueueRefine

/-!
# The priority queue model, described on a plain sequence (helper lemmas)

`codeStep` says what the code does to the sequence of (item, priority) pairs and to the two cached
extreme priorities, faults included.  The properties compare it with the specification `prioStep`.
-/

set_option linter.unusedSectionVars false
set_option linter.unusedSimpArgs false
attribute [local irreducible] Extra.upd

namespace Extra
variable {V P : Type} [PyData V] [PyShow V] [LinearOrder P] [BoundedOrder P] [Inhabited P]

/-- contents, caches and the item an empty queue still shows -/
structure PAbs (V P : Type) where
  xs : List (V × P)
  minP : P
  maxP : P
  st : Option V

/-- the pairs left after the code removed the first one with priority `key`: taking the head of
three or more keeps the head's priority and gives it the second item -/
def codeErase (key : P) : List (V × P) → List (V × P)
  | x :: b :: c :: bs =>
    if x.2 = key then (b.1, x.2) :: c :: bs else x :: (b :: c :: bs).eraseP (fun y => decide (y.2 = key))
  | xs => xs.eraseP (fun y => decide (y.2 = key))

/-- the value the cache is recomputed to -/
def codeCache (low : Bool) (xs : List (V × P)) : P :=
  (xs.map Prod.snd).foldl (fun acc p => (if low then min else max) p acc) (if low then ⊤ else ⊥)

/-- one call, as the code performs it -/
def codeStep (cap : Option Nat) (op : PQOp V P) (s : PAbs V P) : CRes V × PAbs V P :=
  match op with
  | .enqueue item prio =>
    match storeItem item, givenPrio prio with
    | .error e, _ => (.error e, s)
    | .ok _, .error e => (.error e, s)
    | .ok v, .ok p => (.ok (.unit, fullAt cap s.xs.length),
        { s with xs := fit cap ((v, p) :: s.xs), minP := min s.minP p, maxP := max s.maxP p })
  | .dequeue low =>
    if s.xs.isEmpty then (.ok (.item none, true), s)
    else
      match s.xs.find? (fun y => decide (y.2 = if low then s.minP else s.maxP)) with
      | none => (.error .unboundLocalError, s)
      | some x =>
        let ys := codeErase (if low then s.minP else s.maxP) s.xs
        (.ok (.item (some x.1), false),
          { s with
            xs := ys
            minP := if low then codeCache true ys else s.minP
            maxP := if low then s.maxP else codeCache false ys
            st := if s.xs.length = 1 then some x.1 else s.st })
  | .top => (if s.xs.isEmpty then .error .indexError
      else .ok (.item (s.xs.getLast?.map Prod.fst), false), s)
  | .len => (.ok (.nat s.xs.length, false), s)
  | .isEmpty => (.ok (.bool s.xs.isEmpty, false), s)
  | .isFull => (.ok (.bool (fullAt cap s.xs.length), false), s)
  | .clear => (.ok (.unit, false), ⟨[], ⊤, ⊥, none⟩)
  | .repr => (.ok (.text (shownText '⟶' (s.xs.map Prod.fst) s.st), false), s)

/-- a priority queue object represents `s` -/
structure PInv (q : PQueue V P) (s : PAbs V P) : Prop where
  rep : ∃ ns, Rep .dll q.heap q.cont ns (s.xs.map Prod.fst) ∧
    ns.map (fun a => (q.heap.node a).ext) = s.xs.map Prod.snd
  stale : s.xs = [] → Stale q.heap q.cont s.st
  le : ∀ c, q.cap = some c → s.xs.length ≤ c
  minP : q.minP = s.minP
  maxP : q.maxP = s.maxP

variable {h : Heap V P} {l : Addr} {ns : List Addr}

theorem prioLoop_chain (f : P → P → P) : ∀ (ns : List Addr) (fuel : Nat) (acc : P),
    ns.length ≤ fuel → Lnk h ns none →
    prioLoop f fuel acc ns.head? h =
      (.ok ((ns.map (fun a => (h.node a).ext)).foldl (fun acc p => f p acc) acc), h)
  | [], fuel, _, _, _ => by cases fuel <;> rfl
  | a :: as, 0, _, hf, _ => by simp at hf
  | a :: as, fuel + 1, acc, hf, hl => by
    have ih := prioLoop_chain f as fuel (f (h.node a).ext acc) (by simpa using hf) hl.2
    have hn : (h.node a).next = as.head? := by rw [hl.1]; simp
    simp only [List.head?_cons, prioLoop, run_bind, run_nodeAt, hn, ih, List.map_cons,
      List.foldl_cons]

theorem findPrio_chain (key : P) : ∀ (ns : List Addr) (fuel : Nat),
    ns.length ≤ fuel → Lnk h ns none →
    findPrio key fuel ns.head? h =
      match ns.find? (fun a => decide ((h.node a).ext = key)) with
      | some a => (.ok a, h)
      | none => (.error .unboundLocalError, h)
  | [], fuel, _, _ => by cases fuel <;> rfl
  | a :: as, 0, hf, _ => by simp at hf
  | a :: as, fuel + 1, hf, hl => by
    have ih := findPrio_chain key as fuel (by simpa using hf) hl.2
    have hn : (h.node a).next = as.head? := by rw [hl.1]; simp
    by_cases hk : (h.node a).ext = key
    · simp only [List.head?_cons, findPrio, run_bind, run_nodeAt, hk, if_true, run_pure,
        List.find?_cons, decide_true]
    · simp only [List.head?_cons, findPrio, run_bind, run_nodeAt, hk, if_false, hn, ih,
        List.find?_cons, decide_false]

/-- splitting at the first match, on both the nodes and the pairs -/
theorem find_split (key : P) : ∀ (ns : List Addr) (xs : List (V × P)),
    ns.map (fun a => (h.node a).ext) = xs.map Prod.snd →
    (ns.find? (fun a => decide ((h.node a).ext = key)) = none ∧
      xs.find? (fun y => decide (y.2 = key)) = none) ∨
    ∃ as n bs ys x zs, ns = as ++ n :: bs ∧ xs = ys ++ x :: zs ∧ as.length = ys.length ∧
      ns.find? (fun a => decide ((h.node a).ext = key)) = some n ∧
      xs.find? (fun y => decide (y.2 = key)) = some x ∧ x.2 = key ∧ (∀ y ∈ ys, y.2 ≠ key)
  | [], [], _ => Or.inl ⟨rfl, rfl⟩
  | [], _ :: _, e => by simp at e
  | _ :: _, [], e => by simp at e
  | a :: as, x :: xs, e => by
    simp only [List.map_cons, List.cons.injEq] at e
    by_cases hk : x.2 = key
    · right
      exact ⟨[], a, as, [], x, xs, rfl, rfl, rfl, by simp [e.1, hk], by simp [hk], hk, by simp⟩
    · rcases find_split key as xs e.2 with ⟨h1, h2⟩ | ⟨as', n, bs, ys, x', zs, rfl, rfl, h3, h4, h5, h6, h7⟩
      · left; exact ⟨by simp [e.1, hk, h1], by simp [hk, h2]⟩
      · right
        refine ⟨a :: as', n, bs, x :: ys, x', zs, rfl, rfl, by simp [h3], ?_, ?_, h6, ?_⟩
        · rw [List.find?_cons]; simp only [e.1, hk, decide_false]; exact h4
        · rw [List.find?_cons]; simp only [hk, decide_false]; exact h5
        · intro y hy
          rcases List.mem_cons.1 hy with rfl | hy
          · exact hk
          · exact h7 y hy

/-- what remains of `ys ++ x :: zs` when the code removes `x` -/
def leftPairs (ys : List (V × P)) (x : V × P) (zs : List (V × P)) : List (V × P) :=
  match ys, zs with
  | [], b :: c :: bs => (b.1, x.2) :: c :: bs
  | ys, zs => ys ++ zs

theorem codeErase_split {key : P} {ys : List (V × P)} {x : V × P} {zs : List (V × P)}
    (hx : x.2 = key) (hy : ∀ y ∈ ys, y.2 ≠ key) :
    codeErase key (ys ++ x :: zs) = leftPairs ys x zs := by
  have he : (ys ++ x :: zs).eraseP (fun y => decide (y.2 = key)) = ys ++ zs := by
    rw [List.eraseP_append_right _ (by simpa using fun a b h => hy (a, b) h)]
    simp [hx]
  match ys, zs, hy, he with
  | [], [], _, _ => simp [codeErase, leftPairs, hx]
  | [], [b], _, _ => simp [codeErase, leftPairs, hx]
  | [], b :: c :: bs, _, _ => simp [codeErase, leftPairs, hx]
  | [y], [], hy, he => exact he
  | [y], z :: zs, hy, he =>
    have := hy y (by simp)
    simp [codeErase, leftPairs, hx, this]
  | y :: y' :: ys, zs, hy, he =>
    have h1 := hy y (by simp)
    have h2 : ¬ (fun y : V × P => decide (y.2 = key)) y = true := by simpa using h1
    cases ys with
    | nil =>
      simp only [List.nil_append, List.cons_append] at he ⊢
      rw [codeErase, if_neg h1]
      rw [List.eraseP_cons_of_neg (p := fun y : V × P => decide (y.2 = key)) h2] at he
      rw [he]; rfl
    | cons y'' ys =>
      simp only [List.cons_append] at he ⊢
      rw [codeErase, if_neg h1]
      rw [List.eraseP_cons_of_neg (p := fun y : V × P => decide (y.2 = key)) h2] at he
      rw [he]; rfl

theorem updatePrio_spec {xs : List (V × P)} (r : Rep .dll h l ns (xs.map Prod.fst))
    (hp : ns.map (fun a => (h.node a).ext) = xs.map Prod.snd) (low : Bool) {fuel : Nat}
    (hf : ns.length ≤ fuel) :
    updatePrio fuel low l h = (.ok (codeCache low xs), h) := by
  have hE : (xs.map Prod.fst).isEmpty = xs.isEmpty := by cases xs <;> rfl
  by_cases hx : xs = []
  · subst hx
    simp [updatePrio, run_bind, isEmpty_run r, codeCache]
  · have hns : ns ≠ [] := by
      rintro rfl; exact hx (by have := r.length_eq; simpa using this.symm)
    have h1 : xs.isEmpty = false := by cases xs <;> simp_all
    have hl := prioLoop_chain (h := h) (if low then min else max) ns fuel
      (if low then ⊤ else ⊥) hf r.links
    simp only [updatePrio, run_bind, isEmpty_run r, hE, h1, Bool.false_eq_true, if_false,
      run_getList, r.head hns, hl, hp, codeCache]

theorem prun_ok {α : Type} {q : PQueue V P} {m : M V P α} {f : α → CVal V × Bool} {a : α}
    {h' : Heap V P} (e : m q.heap = (.ok a, h')) :
    q.run m f = (.ok (f a), { q with heap := h' }) := by simp only [PQueue.run, e]

theorem prun_err {α : Type} {q : PQueue V P} {m : M V P α} {f : α → CVal V × Bool} {x : Err}
    {h' : Heap V P} (e : m q.heap = (.error x, h')) :
    q.run m f = (.error x, { q with heap := h' }) := by simp only [PQueue.run, e]

/-- the outcome of a call on a priority queue -/
def PStepOK (op : PQOp V P) (q : PQueue V P) (s : PAbs V P) : Prop :=
  (q.exec op).1 = (codeStep q.cap op s).1 ∧ PInv (q.exec op).2 (codeStep q.cap op s).2 ∧
  (q.exec op).2.cap = q.cap

theorem Rep.prev_of {as bs : List Addr} {n : Addr} {ys : List V}
    (r : Rep .dll h l (as ++ n :: bs) ys) : (h.node n).prev = as.getLast? := by
  have := r.plinks rfl
  rw [PLnk_append] at this
  have := this.2.1
  simpa using this

theorem pdequeue_ok {q : PQueue V P} {s : PAbs V P} (I : PInv q s) (low : Bool) :
    PStepOK (.dequeue low) q s := by
  obtain ⟨ns, r, hp⟩ := I.rep
  have hE : (s.xs.map Prod.fst).isEmpty = s.xs.isEmpty := by cases s.xs <;> rfl
  have hem := isEmpty_run r
  rw [hE] at hem
  have hkey : (if low then q.minP else q.maxP) = (if low then s.minP else s.maxP) := by
    rw [I.minP, I.maxP]
  cases hxe : s.xs.isEmpty with
  | true =>
    rw [hxe] at hem
    simp only [PStepOK, PQueue.exec, PQueue.dequeue, hem, codeStep, hxe, if_true]
    exact ⟨trivial, I, trivial⟩
  | false =>
    rw [hxe] at hem
    have hne : s.xs ≠ [] := by rintro e; rw [e] at hxe; simp at hxe
    have hns : ns ≠ [] := by
      rintro rfl; exact hne (by have := r.length_eq; simpa using this.symm)
    have hfu : ns.length ≤ q.heap.nNodes + 1 := by
      have := r.length_le; rw [r.length_eq]; omega
    generalize hk : (if low then s.minP else s.maxP) = key at hkey
    have hfind := findPrio_chain (h := q.heap) key ns (q.heap.nNodes + 1) hfu r.links
    rcases find_split (h := q.heap) key ns s.xs hp with
      ⟨h1, h2⟩ | ⟨as, n, bs, ys, x, zs, e1, e2, h3, h4, h5, h6, h7⟩
    · rw [h1] at hfind
      have e : pqTake (q.heap.nNodes + 1) low key q.cont q.heap =
          (.error .unboundLocalError, q.heap) := by
        simp only [pqTake, run_bind, run_getList, r.head hns, hfind]
      simp only [PStepOK, PQueue.exec, PQueue.dequeue, hem, hkey, e, codeStep, hxe,
        Bool.false_eq_true, if_false, hk, h2]
      exact ⟨trivial, I, trivial⟩
    · rw [h4] at hfind
      have hxs : s.xs.map Prod.fst = ys.map Prod.fst ++ x.1 :: zs.map Prod.fst := by
        rw [e2]; simp
      have r1 : Rep .dll q.heap q.cont (as ++ n :: bs)
          (ys.map Prod.fst ++ x.1 :: zs.map Prod.fst) := by rw [← e1, ← hxs]; exact r
      have hlen : as.length = (ys.map Prod.fst).length := by simpa using h3
      obtain ⟨h', e3, r', _, b, c, d⟩ := removeNode_spec r1 hlen
      have hp1 : as.map (fun a => (q.heap.node a).ext) = ys.map Prod.snd ∧
          (q.heap.node n).ext = x.2 ∧ bs.map (fun a => (q.heap.node a).ext) = zs.map Prod.snd := by
        rw [e1, e2] at hp
        simp only [List.map_append, List.map_cons] at hp
        obtain ⟨t1, t2⟩ := List.append_inj hp (by simpa using h3)
        simp only [List.cons.injEq] at t2
        exact ⟨t1, t2⟩
      have hblen : bs.length = zs.length := by
        have := congrArg List.length hp1.2.2; simpa using this
      have hce := codeErase_split (key := key) (zs := zs) h6 h7
      -- the pairs left in the heap
      have hleft : ∃ ns', Rep .dll h' q.cont ns' ((codeErase key s.xs).map Prod.fst) ∧
          ns'.map (fun a => (h'.node a).ext) = (codeErase key s.xs).map Prod.snd := by
        refine ⟨leftNodes .dll as n bs, ?_, ?_⟩
        · have : (codeErase key s.xs).map Prod.fst = ys.map Prod.fst ++ zs.map Prod.fst := by
            rw [e2, hce]
            match ys, zs with
            | [], [] => simp [leftPairs]
            | [], [b] => simp [leftPairs]
            | [], b :: c :: bs => simp [leftPairs]
            | y :: ys, zs => simp [leftPairs]
          rw [this]; exact r'
        · rw [e2, hce]
          simp only [d]
          match as, ys, bs, zs, h3, hblen, hp1 with
          | [], [], [], [], _, _, _ => simp [leftPairs, leftNodes]
          | [], [], [b], [z], _, _, hp1 => simpa [leftPairs, leftNodes] using hp1.2.2
          | [], [], b :: b' :: bs, z :: z' :: zs, _, _, hp1 =>
            have := hp1.2.2
            simp only [List.map_cons, List.cons.injEq] at this
            simp [leftPairs, leftNodes, hp1.2.1, this]
          | a :: as, y :: ys, bs, zs, _, _, hp1 =>
            have : leftNodes .dll (a :: as) n bs = (a :: as) ++ bs := by
              unfold leftNodes; rfl
            rw [this]
            simp only [leftPairs, List.map_append, hp1.1, hp1.2.2]
      obtain ⟨ns', rl, hpl⟩ := hleft
      have hfu' : ns'.length ≤ q.heap.nNodes + 1 := by
        have := rl.length_le; rw [rl.length_eq]; omega
      have hup := updatePrio_spec rl hpl low hfu'
      have hdat : (q.heap.node n).data = some x.1 := (data_remove hlen r1.data).2.1
      have e : pqTake (q.heap.nNodes + 1) low key q.cont q.heap =
          (.ok (some x.1, codeCache low (codeErase key s.xs)), h') := by
        simp only [pqTake, run_bind, run_getList, r.head hns, hfind, run_getData, hdat,
          run_getPrev, r1.prev_of, e3, hup, run_pure]
      have hst : (codeErase key s.xs) = [] → Stale h' q.cont
          (if s.xs.length = 1 then some x.1 else s.st) := by
        intro hnil
        rw [e2, hce] at hnil
        have hyz : ys = [] ∧ zs = [] := by
          match ys, zs with
          | [], [] => simp [leftPairs]
          | [], [b] => simp [leftPairs] at hnil
          | [], b :: c :: bs => simp [leftPairs] at hnil
          | y :: ys, zs => simp [leftPairs] at hnil
        obtain ⟨rfl, rfl⟩ := hyz
        have ha : as = [] := List.eq_nil_of_length_eq_zero (by simpa using h3)
        have hb : bs = [] := List.eq_nil_of_length_eq_zero (by simpa using hblen)
        subst ha hb
        have h1 : s.xs.length = 1 := by rw [e2]; rfl
        rw [if_pos h1]
        have hsing := removeNode_single r1 ([] : List Addr).getLast?
        rw [e3] at hsing
        have hh := (Prod.ext_iff.1 hsing).2
        simp only at hh
        subst hh
        refine ⟨n, ?_, ?_, hdat⟩
        · have := r1.head (by simp); simpa using this
        · have := r1.links; simpa [Lnk, endOf] using this
      have hle : ∀ c, q.cap = some c → (codeErase key s.xs).length ≤ c := by
        intro c' hc'
        have h8 := I.le c' hc'
        have h9 := rl.length_eq
        have : (codeErase key s.xs).length ≤ s.xs.length := by
          rw [e2, hce]
          match ys, zs with
          | [], [] => simp [leftPairs]
          | [], [b] => simp [leftPairs]
          | [], b :: c :: bs => simp [leftPairs]
          | y :: ys, zs => simp [leftPairs]
        omega
      cases low with
      | true =>
        simp only [if_true] at hk hkey
        simp only [PStepOK, PQueue.exec, PQueue.dequeue, hem, if_true, hkey, e, codeStep, hxe,
          Bool.false_eq_true, if_false, hk, h5]
        exact ⟨trivial, ⟨⟨ns', rl, hpl⟩, hst, hle, rfl, I.maxP⟩, trivial⟩
      | false =>
        simp only [Bool.false_eq_true, if_false] at hk hkey
        simp only [PStepOK, PQueue.exec, PQueue.dequeue, hem, if_true, hkey, e, codeStep, hxe,
          Bool.false_eq_true, if_false, hk, h5]
        exact ⟨trivial, ⟨⟨ns', rl, hpl⟩, hst, hle, I.minP, rfl⟩, trivial⟩

/-- making room, with the priorities -/
theorem evict_prio {xs : List (V × P)} (r : Rep .dll h l ns (xs.map Prod.fst))
    (hp : ns.map (fun a => (h.node a).ext) = xs.map Prod.snd) (full : Bool) :
    ∃ h' ns', whenM full (removeEnd .dll l) h = (.ok (), h') ∧
      Rep .dll h' l ns' ((if full then xs.dropLast else xs).map Prod.fst) ∧
      ns'.map (fun a => (h'.node a).ext) = (if full then xs.dropLast else xs).map Prod.snd ∧
      (xs = [] → h' = h) ∧ Frame h h' (fun a => a ∈ ns) (· = l) ∧ (∀ a ∈ ns', a ∈ ns) ∧
      h'.nNodes = h.nNodes := by
  cases full with
  | false => exact ⟨h, ns, rfl, r, hp, fun _ => rfl, Frame.refl _ _ _, fun _ => id, rfl⟩
  | true =>
    rcases List.eq_nil_or_concat xs with rfl | ⟨ys, x, rfl⟩
    · exact ⟨h, ns, by simp [whenM, removeEnd, run_bind, isEmpty_spec r], r, hp, fun _ => rfl, Frame.refl _ _ _,
        fun _ => id, rfl⟩
    · obtain ⟨as, n, rfl⟩ := Rep.concat_nodes (x := x.1) (ys := ys.map Prod.fst) (by simpa using r)
      obtain ⟨h', e, r', b, _, d, _, f⟩ := removeEnd_ext (x := x.1) (ys := ys.map Prod.fst)
        (by simpa using r)
      refine ⟨h', as, e, by simpa using r', ?_, by simp, f, fun a ha => by simp [ha], b⟩
      simp only [d]
      have := congrArg List.dropLast hp
      simpa using this

theorem penqueue_ok {q : PQueue V P} {s : PAbs V P} (I : PInv q s) (item : Item V)
    (prio : PrioArg P) : PStepOK (.enqueue item prio) q s := by
  obtain ⟨ns, r, hp⟩ := I.rep
  cases item with
  | none =>
    simp only [PStepOK, PQueue.exec, PQueue.enqueue, validateItem, codeStep, storeItem]
    exact ⟨trivial, I, trivial⟩
  | extra =>
    simp only [PStepOK, PQueue.exec, PQueue.enqueue, validateItem, codeStep, storeItem]
    exact ⟨trivial, I, trivial⟩
  | val v =>
    have hg : prio.value = givenPrio prio := by cases prio <;> rfl
    cases hgp : givenPrio prio with
    | error e =>
      simp only [PStepOK, PQueue.exec, PQueue.enqueue, validateItem, codeStep, storeItem, hg, hgp]
      exact ⟨trivial, I, trivial⟩
    | ok p =>
      rw [hgp] at hg
      obtain ⟨h0, e0, n0, o0, L0, b0, c0⟩ := newNode_run p v q.heap
      have f0 : Frame q.heap h0 (fun _ => False) (fun _ => False) :=
        ⟨fun a ha _ => o0 a (Nat.ne_of_lt ha), fun _ _ _ => by rw [L0], by omega, by omega⟩
      have r0 := r.frame f0 (by simp) (by simp)
      have hp0 : ns.map (fun a => (h0.node a).ext) = s.xs.map Prod.snd := by
        rw [← hp]
        exact List.map_congr_left (fun a ha => by rw [o0 a (Nat.ne_of_lt (r.bound a ha))])
      obtain ⟨h1, ns1, e1, r1, hp1, hs1, f1, sub1, b1⟩ :=
        evict_prio r0 hp0 (fullAt q.cap s.xs.length)
      have hfit := fit_cons (cap := q.cap) (xs := s.xs) (PyData.norm v, p) I.le
      have hfull : qIsFull q.cont q.cap h0 = (.ok (fullAt q.cap s.xs.length), h0) := by
        have := full_spec r0 q.cap; simpa using this
      have hn0 : q.heap.nNodes ∉ ns := fun e => Nat.lt_irrefl _ (r.bound _ e)
      have hn1 : h1.node q.heap.nNodes = h0.node q.heap.nNodes := f1.node _ (by omega) hn0
      by_cases hc : capPos q.cap = true
      · obtain ⟨c, e2, _⟩ := getNode_spec (as := []) r1
        obtain ⟨h2, m, ns2, e3, r2, _, _, f2, _, _, _, hk, _⟩ :=
          insertNode_spec (k := .dll) (as := []) (bs := ns1) (ys := [])
            (n := q.heap.nNodes) (v := PyData.norm v) (prev := none) r1 rfl
            (fun e => hn0 (sub1 _ e)) (by omega) (by rw [hn1, n0]) (PyData.norm_norm v)
            (by rw [hn1, n0]) (by rw [hn1, n0]) (Or.inl rfl)
        obtain ⟨rfl, rfl, same⟩ := hk (by simp)
        have e : pqInsert q.cont q.cap q.heap.nNodes h0 =
            (.ok (fullAt q.cap s.xs.length), h2) := by
          simp only [List.length_nil, List.getLast?_nil] at e2
          simp only [pqInsert, run_bind, hfull, e1, hc, whenM_true, e2, e3, run_pure]
        rw [if_pos hc] at hfit
        simp only [PStepOK, PQueue.exec, PQueue.enqueue, validateItem, codeStep, storeItem, hg, hgp,
          e0, e]
        rw [hfit]
        refine ⟨trivial, ⟨⟨_, by simpa using r2, ?_⟩, by simp, ?_, by rw [I.minP], by rw [I.maxP]⟩, trivial⟩
        · simp only [List.nil_append, List.map_cons, (same _).2, hn1, n0, hp1]
        · intro c' hc'
          simp only at hc'
          rw [hc'] at hfit
          have := fit_length_le (c := c') ((PyData.norm v, p) :: s.xs)
          rw [hfit] at this
          rw [hc']; exact this
      · have hc0 : capPos q.cap = false := by simpa using hc
        have hx : s.xs = [] := by
          cases hq : q.cap with
          | none => simp [hq, capPos] at hc0
          | some k =>
            simp only [hq, capPos, decide_eq_false_iff_not] at hc0
            have := I.le k hq
            exact List.eq_nil_of_length_eq_zero (by omega)
        have e : pqInsert q.cont q.cap q.heap.nNodes h0 =
            (.ok (fullAt q.cap s.xs.length), h0) := by
          rw [hs1 hx] at e1
          simp only [pqInsert, run_bind, hfull, e1, hc0, whenM_false, run_pure]
        rw [hc0] at hfit
        simp only [Bool.false_eq_true, if_false] at hfit
        simp only [PStepOK, PQueue.exec, PQueue.enqueue, validateItem, codeStep, storeItem, hg, hgp,
          e0, e]
        rw [hfit]
        refine ⟨trivial, ⟨⟨ns, r0, hp0⟩, ?_, I.le, by rw [I.minP], by rw [I.maxP]⟩, trivial⟩
        intro hx
        have hs := I.stale hx
        cases hst : s.st with
        | none => rw [hst] at hs; simpa [Stale, L0] using hs
        | some y =>
          rw [hst] at hs
          obtain ⟨a, h3, h4, h5⟩ := hs
          have ha := o0 a (Nat.ne_of_lt (r.hbound a h3))
          exact ⟨a, by simpa [L0] using h3, by simpa [ha] using h4, by simpa [ha] using h5⟩

theorem prio_step {q : PQueue V P} {s : PAbs V P} (I : PInv q s) (op : PQOp V P) :
    PStepOK op q s := by
  obtain ⟨ns, r, hp⟩ := I.rep
  have hE : (s.xs.map Prod.fst).isEmpty = s.xs.isEmpty := by cases s.xs <;> rfl
  have hL : (s.xs.map Prod.fst).length = s.xs.length := by simp
  have hem := isEmpty_run r
  rw [hE] at hem
  cases op with
  | enqueue item prio => exact penqueue_ok I item prio
  | dequeue low => exact pdequeue_ok I low
  | top =>
    rcases List.eq_nil_or_concat s.xs with hx | ⟨ys, x, hx⟩
    · rw [hx] at hem
      have e : qTop q.cont q.heap = (.error .indexError, q.heap) := by
        simp only [qTop, run_bind, hem, List.isEmpty_nil, if_true, run_throw]
      have ex : q.exec .top = (.error .indexError, q) := prun_err e
      simp only [PStepOK, ex, codeStep]
      exact ⟨by simp [hx], I, trivial⟩
    · rw [List.concat_eq_append] at hx
      rw [hx, isEmpty_concat] at hem
      have hr := r
      rw [hx, List.map_append, List.map_singleton] at hr
      obtain ⟨a, t1, t2⟩ := hr.tail_data
      have e : qTop q.cont q.heap = (.ok (some x.1), q.heap) := by
        simp only [qTop, run_bind, hem, Bool.false_eq_true, if_false, run_getList, t1, run_getData,
          t2]
      have ex : q.exec .top = (.ok (.item (some x.1), false), q) := prun_ok e
      simp only [PStepOK, ex, codeStep]
      exact ⟨by simp [hx], I, trivial⟩
  | len =>
    have e : llLen q.cont q.heap = (.ok s.xs.length, q.heap) := by
      simp [llLen, run_bind, r.lenobj]
    have ex : q.exec .len = (.ok (.nat s.xs.length, false), q) :=
      prun_ok (f := fun n => (CVal.nat n, false)) e
    simp only [PStepOK, ex, codeStep]
    exact ⟨trivial, I, trivial⟩
  | isEmpty =>
    have ex : q.exec .isEmpty = (.ok (.bool s.xs.isEmpty, false), q) :=
      prun_ok (f := fun n => (CVal.bool n, false)) hem
    simp only [PStepOK, ex, codeStep]
    exact ⟨trivial, I, trivial⟩
  | isFull =>
    have e := full_spec r q.cap
    rw [hL] at e
    have ex : q.exec .isFull = (.ok (.bool (fullAt q.cap s.xs.length), false), q) :=
      prun_ok (f := fun n => (CVal.bool n, false)) e
    simp only [PStepOK, ex, codeStep]
    exact ⟨trivial, I, trivial⟩
  | clear =>
    obtain ⟨h', e, r', hh⟩ := newList_empty q.heap
    have ex : q.exec .clear = (.ok (.unit, false),
        { q with heap := h', cont := q.heap.nLists, minP := ⊤, maxP := ⊥ }) := by
      simp only [PQueue.exec, e]
    simp only [PStepOK, ex, codeStep]
    exact ⟨trivial, ⟨⟨[], r', rfl⟩, fun _ => hh, by simp, rfl, rfl⟩, trivial⟩
  | repr =>
    have hs : s.xs.map Prod.fst = [] → Stale q.heap q.cont s.st := fun h => I.stale (by simpa using h)
    have hx : q.exec .repr =
        (.ok (.text (shownText '⟶' (s.xs.map Prod.fst) s.st), false), q) :=
      prun_ok (f := fun t => (CVal.text t, false)) (qRepr_show r '⟶' s.st hs)
    simp only [PStepOK, hx, codeStep]
    exact ⟨trivial, I, trivial⟩

/-- a history, as the code performs it -/
def codeRun (cap : Option Nat) : List (PQOp V P) → PAbs V P → List (CRes V) × PAbs V P
  | [], s => ([], s)
  | op :: ops, s =>
    let (r, s') := codeStep cap op s
    let (rs, s'') := codeRun cap ops s'
    (r :: rs, s'')

theorem prio_run : ∀ (ops : List (PQOp V P)) {q : PQueue V P} {s : PAbs V P}, PInv q s →
    (q.execs ops).1 = (codeRun q.cap ops s).1 ∧ PInv (q.execs ops).2 (codeRun q.cap ops s).2 ∧
      (q.execs ops).2.cap = q.cap
  | [], _, _, I => ⟨rfl, I, rfl⟩
  | op :: ops, q, s, I => by
    obtain ⟨h1, h2, h3⟩ := prio_step I op
    obtain ⟨i1, i2, i3⟩ := prio_run ops h2
    rw [h3] at i1 i2 i3
    refine ⟨?_, ?_, i3⟩
    · simp only [PQueue.execs, codeRun, h1, i1]
    · simp only [PQueue.execs, codeRun]; exact i2

theorem PInv.init {c : CapArg} {cap : Option Nat} (hc : initCap c = .ok cap) :
    ∃ q : PQueue V P, PQueue.init c = .ok q ∧ q.cap = cap ∧ PInv q ⟨[], ⊤, ⊥, none⟩ := by
  obtain ⟨q, e, h1, ⟨⟨ns, r⟩, h2, h3⟩⟩ := QInv.init (V := V) (X := P) hc
  refine ⟨⟨q.heap, q.cont, q.cap, ⊤, ⊥⟩, ?_, h1, ⟨[], ?_, rfl⟩, fun _ => h2 rfl, h3, rfl, rfl⟩
  · simp only [PQueue.init, e, bind, Except.bind]
  · have hns : ns = [] := List.eq_nil_of_length_eq_zero (by simpa using r.length_eq)
    subst hns; exact r

end Extra
