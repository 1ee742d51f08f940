import Verif.Lists.SliceCall

/-! # Programs over linked lists refine the specification -/

set_option linter.unusedSectionVars false
set_option linter.unusedSimpArgs false
attribute [local irreducible] Extra.upd

namespace Extra
variable {V X : Type} [PyData V] [Inhabited X]

/-- the world represents the abstract state: each live handle is a well-formed list holding its
sequence, and distinct live handles are separate -/
structure Inv (k : Kind) (w : World V X) (s : AState V) (nsf : Nat → List Addr) : Prop where
  len : w.env.length = s.length
  rep : ∀ i xs l, s.at? i = some xs → w.env[i]? = some l → Rep k w.heap l (nsf i) xs
  sep : ∀ i j xs ys l l', i ≠ j → s.at? i = some xs → s.at? j = some ys →
    w.env[i]? = some l → w.env[j]? = some l' →
    l ≠ l' ∧ ∀ a, Own k w.heap l (nsf i) a → ¬ Own k w.heap l' (nsf j) a

variable {k : Kind} {w : World V X} {s : AState V} {nsf : Nat → List Addr}

theorem at?_lt {i : Nat} {xs : List V} (h : s.at? i = some xs) : i < s.length := by
  rw [AState.at?] at h
  by_contra hn
  rw [List.getElem?_eq_none (by omega)] at h
  cases h

theorem Inv.addr (I : Inv k w s nsf) {i : Nat} {xs : List V} (h : s.at? i = some xs) :
    ∃ l, w.env[i]? = some l ∧ Rep k w.heap l (nsf i) xs := by
  have hi : i < w.env.length := by rw [I.len]; exact at?_lt h
  exact ⟨w.env[i], List.getElem?_eq_getElem hi, I.rep i xs _ h (List.getElem?_eq_getElem hi)⟩

theorem at?_put {i j : Nat} {xs ys : List V} (h : s.at? i = some xs) :
    (s.put i ys).at? j = if j = i then some ys else s.at? j := by
  have hi := at?_lt h
  simp only [AState.at?, AState.put, List.getElem?_set]
  by_cases hij : i = j
  · subst hij; simp [hi]
  · simp [hij, Ne.symm hij]

theorem at?_kill {i j : Nat} {xs : List V} (h : AState.at? (s.set i none) j = some xs) :
    j ≠ i ∧ s.at? j = some xs := by
  simp only [AState.at?, List.getElem?_set] at h ⊢
  by_cases hij : i = j
  · subst hij; simp at h
    split at h <;> simp at h
  · simp [hij] at h; exact ⟨Ne.symm hij, h⟩

theorem at?_append {j : Nat} {xs ys : List V} (h : AState.at? (s ++ [some ys]) j = some xs) :
    (j < s.length ∧ s.at? j = some xs) ∨ (j = s.length ∧ xs = ys) := by
  simp only [AState.at?, List.getElem?_append] at h ⊢
  split at h
  · exact Or.inl ⟨by assumption, h⟩
  · right
    by_cases hj : j = s.length
    · subst hj; simp at h; exact ⟨rfl, h.symm⟩
    · rw [List.getElem?_eq_none (by simp; omega)] at h
      cases h

/-- nothing that the invariant mentions has changed -/
theorem Inv.frame (I : Inv k w s nsf) {h' : Heap V X}
    (f : Frame w.heap h' (fun _ => False) (fun _ => False)) : Inv k ⟨h', w.env⟩ s nsf := by
  refine ⟨I.len, fun i xs l h1 h2 => (I.rep i xs l h1 h2).frame f (by simp) (by simp), ?_⟩
  intro i j xs ys l l' hne h1 h2 h3 h4
  obtain ⟨h5, h6⟩ := I.sep i j xs ys l l' hne h1 h2 h3 h4
  refine ⟨h5, fun a ha hb => h6 a ((Own.frame f (I.rep i xs l h1 h3).lbound (by simp) a).1 ha)
    ((Own.frame f (I.rep j ys l' h2 h4).lbound (by simp) a).1 hb)⟩

/-- one list was replaced by another that is separate from the remaining ones -/
theorem Inv.replace (I : Inv k w s nsf) {h' : Heap V X} {i : Nat} {l : Addr} {ns' : List Addr}
    {xs ys : List V} {S L : Addr → Prop} (hi : s.at? i = some xs) (hl : w.env[i]? = some l)
    (f : Frame w.heap h' S L) (r : Rep k h' l ns' ys)
    (hS : ∀ j zs l', j ≠ i → s.at? j = some zs → w.env[j]? = some l' →
      ¬ L l' ∧ (∀ a ∈ nsf j, ¬ S a) ∧ ∀ a, Own k h' l ns' a → ¬ Own k w.heap l' (nsf j) a) :
    Inv k ⟨h', w.env⟩ (s.put i ys) (fun j => if j = i then ns' else nsf j) := by
  refine ⟨by simp [AState.put, I.len], ?_, ?_⟩
  · intro j zs l' h1 h2
    rw [at?_put hi] at h1
    by_cases hji : j = i
    · subst hji
      simp only [if_true, Option.some.injEq] at h1 ⊢
      subst h1
      have : l' = l := by rw [hl] at h2; exact (Option.some.inj h2).symm
      subst this; exact r
    · simp only [hji, if_false] at h1 ⊢
      obtain ⟨h3, h4, _⟩ := hS j zs l' hji h1 h2
      exact (I.rep j zs l' h1 h2).frame f h4 h3
  · have key : ∀ j zs l', j ≠ i → s.at? j = some zs → w.env[j]? = some l' →
        l ≠ l' ∧ ∀ a, Own k h' l ns' a → ¬ Own k h' l' (nsf j) a := by
      intro j zs l' hji h1 h2
      obtain ⟨h3, h4, h5⟩ := hS j zs l' hji h1 h2
      refine ⟨(I.sep i j xs zs l l' (Ne.symm hji) hi h1 hl h2).1, fun a ha hb => h5 a ha ?_⟩
      exact (Own.frame f (I.rep j zs l' h1 h2).lbound h3 a).1 hb
    intro j j' zs zs' m m' hne h1 h2 h3 h4
    rw [at?_put hi] at h1 h2
    by_cases hji : j = i
    · subst hji
      have hj'i : j' ≠ j := Ne.symm hne
      simp only [hj'i, if_false, if_true] at h2 ⊢
      have : m = l := by rw [hl] at h3; exact (Option.some.inj h3).symm
      subst this
      exact key j' zs' m' hj'i h2 h4
    · by_cases hj'i : j' = i
      · subst hj'i
        simp only [hji, if_false, if_true] at h1 ⊢
        have : m' = l := by rw [hl] at h4; exact (Option.some.inj h4).symm
        subst this
        obtain ⟨h5, h6⟩ := key j zs m hji h1 h3
        exact ⟨h5.symm, fun a ha hb => h6 a hb ha⟩
      · simp only [hji, hj'i, if_false] at h1 h2 ⊢
        obtain ⟨h5, h6⟩ := I.sep j j' zs zs' m m' hne h1 h2 h3 h4
        obtain ⟨h7, _⟩ := hS j zs m hji h1 h3
        obtain ⟨h8, _⟩ := hS j' zs' m' hj'i h2 h4
        refine ⟨h5, fun a ha hb => h6 a
          ((Own.frame f (I.rep j zs m h1 h3).lbound h7 a).1 ha)
          ((Own.frame f (I.rep j' zs' m' h2 h4).lbound h8 a).1 hb)⟩

theorem Inv.mut (I : Inv k w s nsf) {h' : Heap V X} {i : Nat} {l : Addr} {ns' : List Addr}
    {xs ys : List V} (hi : s.at? i = some xs) (hl : w.env[i]? = some l)
    (m : Mut k w.heap h' l (nsf i) ns') (r : Rep k h' l ns' ys) :
    Inv k ⟨h', w.env⟩ (s.put i ys) (fun j => if j = i then ns' else nsf j) := by
  refine I.replace hi hl m.frame r ?_
  intro j zs l' hji h1 h2
  obtain ⟨h3, h4⟩ := I.sep i j xs zs l l' (Ne.symm hji) hi h1 hl h2
  refine ⟨fun e => h3 e.symm, fun a ha hb => h4 a hb (Or.inl ha), fun a ha hb => ?_⟩
  rcases m.own a ha with h5 | h5
  · exact h4 a h5 hb
  · exact Nat.not_lt.2 h5 ((I.rep j zs l' h1 h2).own_bound hb)

/-- forget a list -/
theorem Inv.kill (I : Inv k w s nsf) (i : Nat) : Inv k w (s.set i none) nsf := by
  refine ⟨by simp [I.len], fun j xs l h1 h2 => I.rep j xs l (at?_kill h1).2 h2, ?_⟩
  intro j j' zs zs' m m' hne h1 h2 h3 h4
  exact I.sep j j' zs zs' m m' hne (at?_kill h1).2 (at?_kill h2).2 h3 h4

/-- add a list that is separate from all the others -/
theorem Inv.add (I : Inv k w s nsf) {l : Addr} {ns : List Addr} {ys : List V}
    (r : Rep k w.heap l ns ys)
    (hS : ∀ j zs l', s.at? j = some zs → w.env[j]? = some l' →
      l ≠ l' ∧ ∀ a, Own k w.heap l ns a → ¬ Own k w.heap l' (nsf j) a) :
    Inv k ⟨w.heap, w.env ++ [l]⟩ (s ++ [some ys]) (fun j => if j = s.length then ns else nsf j) := by
  have henv : ∀ j, j < s.length → (w.env ++ [l])[j]? = w.env[j]? := fun j hj =>
    List.getElem?_append_left (by rw [I.len]; exact hj)
  have henv' : (w.env ++ [l])[s.length]? = some l := by
    rw [← I.len]; simp
  refine ⟨by simp [I.len], ?_, ?_⟩
  · intro j zs l' h1 h2
    rcases at?_append h1 with ⟨hj, h1⟩ | ⟨rfl, rfl⟩
    · simp only [henv j hj] at h2
      simp only [Nat.ne_of_lt hj, if_false]
      exact I.rep j zs l' h1 h2
    · simp only [henv', Option.some.injEq] at h2
      subst h2
      simpa using r
  · intro j j' zs zs' m m' hne h1 h2 h3 h4
    rcases at?_append h1 with ⟨hj, h1⟩ | ⟨rfl, rfl⟩
    · simp only [henv j hj] at h3
      simp only [Nat.ne_of_lt hj, if_false]
      rcases at?_append h2 with ⟨hj', h2⟩ | ⟨rfl, rfl⟩
      · simp only [henv j' hj'] at h4
        simp only [Nat.ne_of_lt hj', if_false]
        exact I.sep j j' zs zs' m m' hne h1 h2 h3 h4
      · simp only [henv', Option.some.injEq] at h4
        subst h4
        obtain ⟨h5, h6⟩ := hS j zs m (by assumption) h3
        simp only [if_true]
        exact ⟨h5.symm, fun a ha hb => h6 a hb ha⟩
    · simp only [henv', Option.some.injEq] at h3
      subst h3
      rcases at?_append h2 with ⟨hj', h2⟩ | ⟨rfl, rfl⟩
      · simp only [henv j' hj'] at h4
        simp only [Nat.ne_of_lt hj', if_false, if_true]
        exact hS j' zs' m' h2 h4
      · exact absurd rfl hne

theorem Inv.built (I : Inv k w s nsf) {h' : Heap V X} {l : Addr} {ns : List Addr} {ys : List V}
    (b : Built k w.heap h' l ns ys) :
    Inv k ⟨h', w.env ++ [l]⟩ (s ++ [some ys]) (fun j => if j = s.length then ns else nsf j) := by
  refine (I.frame b.frame).add (w := ⟨h', w.env⟩) b.rep ?_
  intro j zs l' h1 h2
  have hr := I.rep j zs l' h1 h2
  refine ⟨?_, fun a ha hb => Nat.not_lt.2 (b.own a ha)
    (hr.own_bound ((Own.frame b.frame hr.lbound (by simp) a).1 hb))⟩
  rintro rfl
  exact Nat.not_lt.2 b.new hr.lbound

/-! ## one step -/

/-- the outcome of a step is allowed and re-establishes the invariant -/
def StepOK (k : Kind) (o : Res V × World V X) (a : Option (List (Res V) × AState V)) : Prop :=
  ∀ rs s', a = some (rs, s') → o.1 ∈ rs ∧ ∃ nsf', Inv k o.2 s' nsf'

theorem World.addr_run (w : World V X) {i : Nat} {l : Addr} (h : w.env[i]? = some l)
    (hp : Heap V X) : w.addr i hp = (.ok l, hp) := by
  simp [World.addr, h]

theorem StepOK.bind (I : Inv k w s nsf) {i : Nat} {o : Res V × World V X}
    {f : List V → Option (List (Res V) × AState V)}
    (h : ∀ xs l, s.at? i = some xs → w.env[i]? = some l → Rep k w.heap l (nsf i) xs →
      StepOK k o (f xs)) : StepOK k o (s.at? i >>= f) := by
  cases hx : s.at? i with
  | none => intro rs s' e; cases e
  | some xs =>
    obtain ⟨l, h1, h2⟩ := I.addr hx
    exact h xs l hx h1 h2

theorem stepOK_one {o : Res V × World V X} {s' : AState V} {nsf' : Nat → List Addr}
    (I : Inv k o.2 s' nsf') : StepOK k o (one o.1 s') := by
  intro rs s'' e
  simp only [one, Option.some.injEq, Prod.mk.injEq] at e
  obtain ⟨rfl, rfl⟩ := e
  exact ⟨by simp, _, I⟩

theorem upd_step (I : Inv k w s nsf) {i : Nat} {l : Addr} {xs : List V} (hi : s.at? i = some xs)
    (hl : w.env[i]? = some l) {m : Addr → M V X Unit} {r : Except Err (List V)}
    (h : UpdOK k w.heap l (nsf i) (m l) r) :
    StepOK k (w.run (w.addr i >>= m) (fun _ => (.ok .unit, []))) (specUpd s i r) := by
  cases r with
  | error e =>
    have e1 : w.run (w.addr i >>= m) (fun _ => (.ok .unit, [])) = (.error e, ⟨w.heap, w.env⟩) := by
      simp only [World.run, run_bind, w.addr_run hl]
      rw [show m l w.heap = (.error e, w.heap) from h]
    rw [e1]
    exact stepOK_one (o := (.error e, ⟨w.heap, w.env⟩)) I
  | ok ys =>
    obtain ⟨h', ns', e0, r', m'⟩ := h
    have e1 : w.run (w.addr i >>= m) (fun _ => (.ok .unit, [])) = (.ok .unit, ⟨h', w.env⟩) := by
      simp only [World.run, run_bind, w.addr_run hl]
      rw [e0]; simp
    rw [e1]
    exact stepOK_one (o := (.ok .unit, ⟨h', w.env⟩)) (I.mut hi hl m' r')

theorem new_step (I : Inv k w s nsf) {m : M V X Addr} {r : Except Err (List V)}
    (h : NewOK k w.heap m r) :
    StepOK k (w.run m (fun l => (.ok (.handle w.env.length), [l]))) (specNew s r) := by
  cases r with
  | error e =>
    obtain ⟨h', e0, f⟩ := h
    have e1 : w.run m (fun l => (.ok (.handle w.env.length), [l])) = (.error e, ⟨h', w.env⟩) := by
      simp only [World.run, e0]
    rw [e1]
    exact stepOK_one (o := (.error e, ⟨h', w.env⟩)) (I.frame f)
  | ok ys =>
    obtain ⟨h', l', ns', e0, b⟩ := h
    have e1 : w.run m (fun l => (.ok (.handle w.env.length), [l])) =
        (.ok (.handle s.length), ⟨h', w.env ++ [l']⟩) := by
      simp only [World.run, e0, I.len]
    rw [e1]
    exact stepOK_one (o := (.ok (.handle s.length), ⟨h', w.env ++ [l']⟩)) (I.built b)

theorem new_step' (I : Inv k w s nsf) {i : Nat} {l : Addr} (hl : w.env[i]? = some l)
    {m : Addr → M V X Addr} {r : Except Err (List V)} (h : NewOK k w.heap (m l) r) :
    StepOK k (w.run (w.addr i >>= m) (fun l => (.ok (.handle w.env.length), [l]))) (specNew s r) := by
  refine new_step I ?_
  have e : (w.addr i >>= m) w.heap = m l w.heap := by rw [run_bind, w.addr_run hl]
  cases r with
  | error er => obtain ⟨h', e0, f⟩ := h; exact ⟨h', e.trans e0, f⟩
  | ok ys => obtain ⟨h', l', ns', e0, b⟩ := h; exact ⟨h', l', ns', e.trans e0, b⟩

theorem read_step (I : Inv k w s nsf) {α : Type} {m : M V X α} {f : α → Out V}
    {r : Except Err α} (h : m w.heap = (r, w.heap)) :
    StepOK k (w.run m (fun a => (.ok (f a), []))) (specRead s (r.map f)) := by
  cases r with
  | error e =>
    have e1 : w.run m (fun a => (.ok (f a), [])) = (.error e, ⟨w.heap, w.env⟩) := by
      simp only [World.run, h]
    rw [e1]
    exact stepOK_one (o := (.error e, ⟨w.heap, w.env⟩)) I
  | ok a =>
    have e1 : w.run m (fun a => (.ok (f a), [])) = (.ok (f a), ⟨w.heap, w.env⟩) := by
      simp [World.run, h]
    rw [e1]
    exact stepOK_one (o := (.ok (f a), ⟨w.heap, w.env⟩)) I

theorem read_step1 (I : Inv k w s nsf) {α : Type} {m : Addr → M V X α} {f : α → Out V} {i : Nat}
    {l : Addr} (hl : w.env[i]? = some l) {r : Except Err α} {r' : Res V}
    (h : m l w.heap = (r, w.heap)) (hr : r' = r.map f) :
    StepOK k (w.run (w.addr i >>= m) (fun a => (.ok (f a), []))) (specRead s r') := by
  subst hr
  exact read_step I (by rw [run_bind, w.addr_run hl]; exact h)

theorem read_step2 (I : Inv k w s nsf) {α : Type} {m : Addr → Addr → M V X α} {f : α → Out V}
    {i j : Nat} {l o : Addr} (hl : w.env[i]? = some l) (ho : w.env[j]? = some o) {r : Except Err α}
    {r' : Res V} (h : m l o w.heap = (r, w.heap)) (hr : r' = r.map f) :
    StepOK k (w.run (w.addr i >>= fun l => w.addr j >>= fun o => m l o)
      (fun a => (.ok (f a), []))) (specRead s r') := by
  subst hr
  exact read_step I (by rw [run_bind, w.addr_run hl]; simp only; rw [run_bind, w.addr_run ho]; exact h)

theorem nodup_length_le {ns : List Nat} (hn : ns.Nodup) {n : Nat} (hb : ∀ a ∈ ns, a < n) :
    ns.length ≤ n := by
  have := (List.nodup_range (n := n))
  have h2 : ns ⊆ List.range n := fun a ha => List.mem_range.2 (hb a ha)
  have := (List.subperm_of_subset hn h2).length_le
  simpa using this

theorem Rep.length_le {h : Heap V X} {l : Addr} {ns : List Addr} {xs : List V}
    (r : Rep k h l ns xs) : xs.length ≤ h.nNodes := by
  rw [← r.length_eq]; exact nodup_length_le r.nodup r.bound

theorem specOrd_eq (op : V → V → Except Err Bool) (xs ys : List V) (p q : Prop) [Decidable p]
    [Decidable q] : specOrd op xs ys p q = ordResult op xs ys (decide p) (decide q) := by
  simp only [specOrd, ordResult, badPair]
  split
  · rename_i h; simp only [h]; rfl
  · rename_i h; simp only [h]
    congr 1
    simp only [List.all_eq_true, decide_eq_true_eq]

theorem mem_map_some {v : Option V} {xs : List V} :
    decide (v ∈ xs.map some) = (match v with
      | none => false
      | some v => decide (v ∈ xs)) := by
  cases v <;> simp

theorem count_map_some {v : Option V} {xs : List V} :
    (xs.map some).count v = (match v with
      | none => 0
      | some v => xs.count v) := by
  cases v with
  | none => simp [List.count_eq_zero]
  | some v =>
    simp only
    induction xs with
    | nil => rfl
    | cons x xs ih => simp [List.count_cons, ih]

/-- every call refines its specification -/
theorem step_refines [PyOrd V] (I : Inv k w s nsf) (op : Op V) :
    StepOK k (exec k op w) (astep k op s) := by
  cases op with
  | new items => exact new_step I (new_call items)
  | addFront i item => exact .bind I fun xs l hi hl r => upd_step I hi hl (addFront_call r item)
  | addEnd i item => exact .bind I fun xs l hi hl r => upd_step I hi hl (addEnd_call r item)
  | insert i idx item => exact .bind I fun xs l hi hl r => upd_step I hi hl (insert_call r idx item)
  | setItem i idx item =>
    refine .bind I fun xs l hi hl r => ?_
    by_cases hc : k = .cll ∧ xs = []
    · obtain ⟨rfl, rfl⟩ := hc
      obtain ⟨res, h', e, r', m, hres⟩ := setItem_empty r idx item
      have hrun : exec .cll (.setItem i idx item) w =
          (res.map (fun _ => .unit), ⟨h', w.env⟩) := by
        simp only [exec, World.run, run_bind, w.addr_run hl, e]
        cases res <;> simp [Except.map]
      have I' := I.mut hi hl m r'
      have hput : ∀ j, s.at? j = (s.put i []).at? j := by
        intro j; rw [at?_put hi]; split
        · rename_i h; rw [h, hi]
        · rfl
      have I'' : Inv .cll ⟨h', w.env⟩ s (fun j => if j = i then nsf i else nsf j) :=
        ⟨I.len, fun j xs l h1 h2 => I'.rep j xs l (by rw [← hput]; exact h1) h2,
          fun j j' xs ys l l' hne h1 h2 h3 h4 => I'.sep j j' xs ys l l' hne
            (by rw [← hput]; exact h1) (by rw [← hput]; exact h2) h3 h4⟩
      simp only [and_self, if_true, List.length_nil]
      rw [hrun]
      cases hp : specPos .cll 0 idx with
      | error er =>
        rw [hp] at hres
        simp only at hres
        subst hres
        exact stepOK_one (o := (.error er, ⟨h', w.env⟩)) I''
      | ok p =>
        rw [hp] at hres
        cases item with
        | none =>
          simp only at hres
          subst hres
          exact stepOK_one (o := (.error .assertionError, ⟨h', w.env⟩)) I''
        | extra =>
          intro rs s' e
          simp only [Option.some.injEq, Prod.mk.injEq] at e
          obtain ⟨rfl, rfl⟩ := e
          rcases hres with rfl | rfl
          · exact ⟨by simp [Except.map], _, I''⟩
          · exact ⟨by simp [Except.map], _, I''⟩
        | val v =>
          intro rs s' e
          simp only [Option.some.injEq, Prod.mk.injEq] at e
          obtain ⟨rfl, rfl⟩ := e
          rcases hres with rfl | rfl
          · exact ⟨by simp [Except.map], _, I''⟩
          · exact ⟨by simp [Except.map], _, I''⟩
    · simp only [hc, if_false]
      exact upd_step I hi hl (setItem_call r idx item hc)
  | delItem i idx => exact .bind I fun xs l hi hl r => upd_step I hi hl (delItem_call r idx)
  | removeFront i => exact .bind I fun xs l hi hl r => upd_step I hi hl (removeFront_call r)
  | removeEnd i => exact .bind I fun xs l hi hl r => upd_step I hi hl (removeEnd_call r)
  | remove i item all => exact .bind I fun xs l hi hl r => upd_step I hi hl (remove_call r item all)
  | clear i => exact .bind I fun xs l hi hl r => upd_step I hi hl (clear_call r)
  | rotate i d dir f =>
    refine .bind I fun xs l hi hl r => ?_
    simp only [specFlag_eq, specRotate_eq]
    have hf : xs.length < w.fuel := Nat.lt_succ_of_le r.length_le
    cases hfl : checkInplace k dir f with
    | error e =>
      have : exec k (.rotate i d dir f) w = (.error e, ⟨w.heap, w.env⟩) := by
        simp [exec, World.run, run_bind, w.addr_run hl, rotateList, hfl]
      rw [this]
      exact stepOK_one (o := (.error e, ⟨w.heap, w.env⟩)) I
    | ok b =>
      cases d with
      | none =>
        have : exec k (.rotate i none dir f) w = (.error .typeError, ⟨w.heap, w.env⟩) := by
          simp [exec, World.run, run_bind, w.addr_run hl, rotateList, hfl]
        rw [this]
        exact stepOK_one (o := (.error .typeError, ⟨w.heap, w.env⟩)) I
      | some d =>
        by_cases hd : d < 0
        · have : exec k (.rotate i (some d) dir f) w = (.error .valueError, ⟨w.heap, w.env⟩) := by
            simp [exec, World.run, run_bind, w.addr_run hl, rotateList, hfl, hd]
          rw [this]
          simp only [hd, if_true]
          exact stepOK_one (o := (.error .valueError, ⟨w.heap, w.env⟩)) I
        · simp only [hd, if_false]
          cases b with
          | true =>
            obtain ⟨h', ns', e, r', m⟩ := rotateList_inplace r hf (by omega) dir hfl (d := d)
            have : exec k (.rotate i (some d) dir f) w = (.ok .unit, ⟨h', w.env⟩) := by
              simp [exec, World.run, run_bind, w.addr_run hl, e]
            rw [this]
            exact stepOK_one (o := (.ok .unit, ⟨h', w.env⟩)) (I.mut hi hl m r')
          | false =>
            obtain ⟨h', l', ns', e, b⟩ := rotateList_new r hf (by omega) dir hfl (d := d)
            have : exec k (.rotate i (some d) dir f) w =
                (.ok (.handle s.length), ⟨h', w.env ++ [l']⟩) := by
              simp [exec, World.run, run_bind, w.addr_run hl, e, I.len]
            rw [this]
            exact stepOK_one (o := (.ok (.handle s.length), ⟨h', w.env ++ [l']⟩)) (I.built b)
  | toList i => exact .bind I fun xs l hi hl r => read_step1 I hl (toList_spec r) rfl
  | len i => exact .bind I fun xs l hi hl r => read_step1 I hl (llLen_spec r) rfl
  | isEmpty i => exact .bind I fun xs l hi hl r => read_step1 I hl (isEmpty_spec r) rfl
  | getItem i idx =>
    refine .bind I fun xs l hi hl r => ?_
    have hmap : ∀ x : Except Err V, (x.map (fun v => Out.val (some v))) =
        (x.map some).map Out.val := by intro x; cases x <;> rfl
    cases k with
    | cll =>
      exact read_step1 I hl (getItem_call r idx (Or.inl rfl)) (hmap _)
    | ll | dll =>
      cases idx with
      | slice a b c => exact new_step' I hl (getSlice_call (by simp) r a b c)
      | int n => exact read_step1 I hl (getItem_call r _ (Or.inr (by simp))) (hmap _)
      | other => exact read_step1 I hl (getItem_call r _ (Or.inr (by simp))) (hmap _)
  | contains i v =>
    refine .bind I fun xs l hi hl r => ?_
    refine read_step1 I hl (contains_spec r (fuel := w.fuel) ?_ v) ?_
    · have := r.length_le; simp only [World.fuel]; omega
    · rw [mem_map_some]; rfl
  | count i v =>
    refine .bind I fun xs l hi hl r => ?_
    refine read_step1 I hl (count_spec r v) ?_
    rw [count_map_some]; rfl
  | copy i =>
    refine .bind I fun xs l hi hl r => new_step' I hl (m := fun l => copy k l) ?_
    exact copy_spec r
  | reverse i =>
    refine .bind I fun xs l hi hl r => new_step' I hl (m := fun l => reverse k l) ?_
    exact reverse_spec r
  | split i idx =>
    refine .bind I fun xs l hi hl r => ?_
    have hv := validateIndex_spec r idx
    cases hp : specPos k xs.length idx with
    | error e =>
      rw [hp] at hv
      have : exec k (.split i idx) w = (.error e, ⟨w.heap, w.env⟩) := by
        simp [exec, World.run, run_bind, w.addr_run hl, split, hv]
      rw [this]
      exact stepOK_one (o := (.error e, ⟨w.heap, w.env⟩)) I
    | ok p =>
      rw [hp] at hv
      obtain ⟨_, rfl, hle⟩ := hv
      simp only
      obtain ⟨h', l1, l2, ns1, ns2, e, hne, b1, b2, hd⟩ := split_spec r (i := p) hle
        rfl
      have hj : ∀ n : Nat, (if k = .cll then (if xs.length = 0 then 0 else p % xs.length) else p) = n →
          xs.take (if k = .cll then p % xs.length else p) = xs.take n ∧
          xs.drop (if k = .cll then p % xs.length else p) = xs.drop n := by
        rintro n rfl
        cases xs with
        | nil => simp
        | cons x xs => simp
      rw [(hj _ rfl).1, (hj _ rfl).2]
      have hrun : exec k (.split i (.int p)) w =
          (.ok (.handles s.length (s.length + 1)), ⟨h', w.env ++ [l1, l2]⟩) := by
        simp [exec, World.run, run_bind, w.addr_run hl, e, I.len]
      rw [hrun]
      have I1 := I.built b1
      have I2 := I1.add (w := ⟨h', w.env ++ [l1]⟩) b2.rep (by
        intro j zs l' h1 h2
        rcases at?_append h1 with ⟨hj, h1⟩ | ⟨rfl, rfl⟩
        · simp only [List.getElem?_append_left (show j < w.env.length by rw [I.len]; exact hj)] at h2
          have hr := I.rep j zs l' h1 h2
          refine ⟨?_, fun a ha hb => ?_⟩
          · rintro rfl; exact Nat.not_lt.2 b2.new hr.lbound
          · simp only [Nat.ne_of_lt hj, if_false] at hb
            exact Nat.not_lt.2 (b2.own a ha)
              (hr.own_bound ((Own.frame b1.frame hr.lbound (by simp) a).1 hb))
        · have : l' = l1 := by
            rw [← I.len] at h2; simpa using h2.symm
          subst this
          refine ⟨hne.symm, fun a ha hb => ?_⟩
          simp only [if_true] at hb
          exact hd a hb ha)
      simp only [List.append_assoc, List.singleton_append] at I2
      exact stepOK_one (o := (.ok (.handles s.length (s.length + 1)), ⟨h', w.env ++ [l1, l2]⟩)) I2
  | extend i j =>
    refine .bind I fun xs l hi hl r => ?_
    refine .bind I fun ys o hj ho ro => ?_
    have hf : ys.length < w.fuel := Nat.lt_succ_of_le ro.length_le
    by_cases hy : ys = []
    · subst hy
      have hlo := ro.lenobj
      simp only [List.length_nil] at hlo
      have : exec k (.extend i j) w = (.ok .unit, ⟨w.heap, w.env⟩) := by
        simp [exec, World.run, run_bind, w.addr_run hl, w.addr_run ho, extend, hlo]
      rw [this]
      simp only [if_true]
      exact stepOK_one (o := (.ok .unit, ⟨w.heap, w.env⟩)) I
    · simp only [hy, if_false]
      by_cases hij : i = j
      · simp only [hij, if_true]; intro rs s' e; cases e
      · simp only [hij, if_false]
        obtain ⟨hne, hsep⟩ := I.sep i j xs ys l o hij hi hj hl ho
        by_cases hk : k = .cll
        · subst hk
          obtain ⟨h', ns', e, r', m, _⟩ := extendCLL_spec hf r ro
            (fun a ha hb => hsep a hb (Or.inl ha)) hne
          have : exec .cll (.extend i j) w = (.ok .unit, ⟨h', w.env⟩) := by
            simp [exec, World.run, run_bind, w.addr_run hl, w.addr_run ho, e]
          rw [this]
          simp only [if_true]
          exact stepOK_one (o := (.ok .unit, ⟨h', w.env⟩)) (I.mut hi hl m r')
        · obtain ⟨h', e, r', f, _⟩ := extend_spec hk w.fuel r ro
            (fun a ha hb => hsep a (Or.inl ha) (Or.inl hb)) hne
          have : exec k (.extend i j) w = (.ok .unit, ⟨h', w.env⟩) := by
            simp [exec, World.run, run_bind, w.addr_run hl, w.addr_run ho, e]
          rw [this]
          simp only [hk, if_false]
          have Ik := I.kill j
          have hi' : AState.at? (s.set j none) i = some xs := by
            rw [AState.at?, List.getElem?_set_ne (Ne.symm hij)]; exact hi
          have := Ik.replace hi' hl f r' (by
            intro j' zs l' hne' h1 h2
            obtain ⟨hj', h1⟩ := at?_kill h1
            obtain ⟨h3, h4⟩ := I.sep i j' xs zs l l' (Ne.symm hne') hi h1 hl h2
            obtain ⟨h5, h6⟩ := I.sep j j' ys zs o l' (Ne.symm hj') hj h1 ho h2
            refine ⟨fun e => h3 e.symm, ?_, ?_⟩
            · rintro a ha (hb | hb)
              · exact h4 a (Or.inl hb) (Or.inl ha)
              · exact h6 a (Or.inl hb) (Or.inl ha)
            · intro a ha hb
              rcases List.mem_append.1 (ha.mem_of_ne hk) with hc | hc
              · exact h4 a (Or.inl hc) hb
              · exact h6 a (Or.inl hc) hb)
          have hcomm : AState.put (s.set j none) i (xs ++ ys) = (s.put i (xs ++ ys)).set j none := by
            simp only [AState.put]
            rw [List.set_comm _ _ (Ne.symm hij)]
          rw [hcomm] at this
          exact stepOK_one (o := (.ok .unit, ⟨h', w.env⟩)) this
  | eq i j =>
    exact .bind I fun xs l hi hl r => .bind I fun ys o hj ho ro =>
      read_step2 I hl ho (llEq_spec r ro).1 rfl
  | ne i j =>
    exact .bind I fun xs l hi hl r => .bind I fun ys o hj ho ro =>
      read_step2 I hl ho (llEq_spec r ro).2 rfl
  | lt i j =>
    exact .bind I fun xs l hi hl r => .bind I fun ys o hj ho ro =>
      read_step2 I hl ho (llLt_spec r ro PyOrd.lt) (by rw [specOrd_eq])
  | le i j =>
    exact .bind I fun xs l hi hl r => .bind I fun ys o hj ho ro =>
      read_step2 I hl ho (llLe_spec r ro PyOrd.le) (by rw [specOrd_eq])
  | gt i j =>
    exact .bind I fun xs l hi hl r => .bind I fun ys o hj ho ro =>
      read_step2 I hl ho (llGt_spec r ro PyOrd.gt) (by rw [specOrd_eq])
  | ge i j =>
    exact .bind I fun xs l hi hl r => .bind I fun ys o hj ho ro =>
      read_step2 I hl ho (llGe_spec r ro PyOrd.ge) (by rw [specOrd_eq])

/-- every history of calls refines its specification -/
theorem history_refines [PyOrd V] (ops : List (Op V)) :
    ∀ {w : World V X} {s : AState V} {nsf : Nat → List Addr}, Inv k w s nsf →
    ∀ {rss s'}, arun k ops s = some (rss, s') →
      List.Forall₂ (fun r rs => r ∈ rs) (execs k ops w).1 rss ∧
      ∃ nsf', Inv k (execs k ops w).2 s' nsf' := by
  induction ops with
  | nil =>
    intro w s nsf I rss s' e
    simp only [arun, Option.some.injEq, Prod.mk.injEq] at e
    obtain ⟨rfl, rfl⟩ := e
    exact ⟨.nil, nsf, I⟩
  | cons op ops ih =>
    intro w s nsf I rss s' e
    simp only [arun, Option.bind_eq_bind, Option.bind_eq_some_iff] at e
    obtain ⟨⟨rs, s1⟩, e1, ⟨rss', s2⟩, e2, e3⟩ := e
    simp only [Option.some.injEq, Prod.mk.injEq] at e3
    obtain ⟨rfl, rfl⟩ := e3
    obtain ⟨h1, nsf1, I1⟩ := step_refines I op rs s1 e1
    obtain ⟨h2, nsf2, I2⟩ := ih I1 e2
    exact ⟨.cons h1 h2, nsf2, I2⟩

theorem Inv.init : Inv k (World.init : World V X) [] nsf :=
  ⟨rfl, fun i xs l h => by simp [AState.at?] at h, fun i j xs ys l l' _ h => by simp [AState.at?] at h⟩

end Extra
