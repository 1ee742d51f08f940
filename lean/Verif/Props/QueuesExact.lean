import Verif.Lists.PrioHistory
import Verif.Props.DrawQueues

/-!
# Properties C19 and C20, exactly: when a `PriorityQueue` does what it should

`prioStep` is the specification (Verif/Lists/QueueSpec.lean), `faultless` the condition on histories
(Verif/Lists/PrioHistory.lean).
-/

set_option linter.unusedSectionVars false

namespace Extra
variable {V P : Type} [PyData V] [PyShow V] [LinearOrder P] [BoundedOrder P] [Inhabited P]

/-- with `SHOW_PRIORITY` on, the queue shows these items with these priorities, unless there are none
(what an empty queue shows is C17) -/
def shows [PyShow P] (q : PQueue V P) (xs : List (V × P)) : Prop :=
  xs ≠ [] →
    let cells := xs.map (fun x => PyShow.str x.1 ++ "|P:".toList ++ PyShow.str x.2)
    q.reprP.1 = .ok (.text [ruler ['─', '┬'] '┬' cells ['─'], boxes ['⟶', '│'] cells ['⟶'],
      ruler ['─', '┴'] '┴' cells ['─']], false)

/-- all calls of a history (but `repr`, see C17) answer as the specification says, and after each of
them the queue shows the items and priorities the specification says -/
def rightRun [PyShow P] (cap : Option Nat) : List (PQOp V P) → PQueue V P → List (V × P) → Prop
  | [], _, _ => True
  | op :: ops, q, xs =>
    (op ≠ .repr → (q.exec op).1 = (prioStep cap op xs).1) ∧
    shows (q.exec op).2 (prioStep cap op xs).2 ∧
    rightRun cap ops (q.exec op).2 (prioStep cap op xs).2

/-- the cached priority of a direction -/
private def PAbs.key (s : PAbs V P) (low : Bool) : P := if low then s.minP else s.maxP

private theorem lost_iff {low : Bool} {xs ps : List (V × P)} {m : P} (hm : IsCache low ps m)
    (hx : xs ≠ []) (hs : xs ⊆ ps) :
    lost low xs ps ↔ xs.find? (fun y => decide (y.2 = m)) = none := by
  obtain ⟨h1, -, h3⟩ := hm
  rw [List.find?_eq_none]
  constructor
  · rintro ⟨p, hp, hb⟩ x hx'
    have a := h1 p hp
    have b := hb x hx'
    cases low <;> simp [before] at a b ⊢
    · exact (b.trans_le a).ne
    · exact (a.trans_lt b).ne'
  · intro h
    obtain ⟨x, hx'⟩ := List.exists_mem_of_ne_nil _ hx
    obtain ⟨y, hy, e⟩ := h3 (List.ne_nil_of_mem (hs hx'))
    refine ⟨y, hy, fun z hz => ?_⟩
    have a := h1 z (hs hz)
    have b := h z hz
    cases low <;> simp [before] at a b ⊢
    · exact lt_of_le_of_ne (a.trans_eq e.symm) (by rw [e]; exact b)
    · exact lt_of_le_of_ne (e.le.trans a) (by rw [e]; exact Ne.symm b)

private theorem best_iff {low : Bool} {xs ps : List (V × P)} {m : P} (hm : IsCache low ps m)
    (hs : xs ⊆ ps) (hl : ∃ z ∈ xs, z.2 = m) {x : V × P} (hx : x ∈ xs) :
    best low xs x = decide (x.2 = m) := by
  obtain ⟨h1, -, -⟩ := hm
  obtain ⟨z, hz, e⟩ := hl
  rw [Bool.eq_iff_iff, decide_eq_true_iff, best, List.all_eq_true]
  constructor
  · intro h
    have a := h z hz
    have b := h1 x (hs hx)
    cases low <;> simp at a b
    · exact le_antisymm b (e ▸ a)
    · exact le_antisymm (e ▸ a) b
  · intro h y hy
    have b := h1 y (hs hy)
    cases low <;> simp at b ⊢ <;> rw [h] <;> exact b

private theorem eraseP_same {α : Type} {p q : α → Bool} : ∀ {xs : List α}, (∀ x ∈ xs, p x = q x) →
    xs.eraseP p = xs.eraseP q
  | [], _ => rfl
  | x :: xs, h => by
    rw [List.eraseP_cons, List.eraseP_cons, h x (by simp),
      eraseP_same (fun y hy => h y (List.mem_cons_of_mem _ hy))]

private theorem find_same {α : Type} {p q : α → Bool} : ∀ {xs : List α}, (∀ x ∈ xs, p x = q x) →
    xs.find? p = xs.find? q
  | [], _ => rfl
  | x :: xs, h => by
    rw [List.find?_cons, List.find?_cons, h x (by simp),
      find_same (fun y hy => h y (List.mem_cons_of_mem _ hy))]

private theorem codeErase_tame {k : P} {xs : List (V × P)}
    (h : ∀ x b c zs, xs = x :: b :: c :: zs → x.2 = k → b.2 = x.2) :
    codeErase k xs = xs.eraseP (fun y => decide (y.2 = k)) := by
  match xs, h with
  | x :: b :: c :: zs, h =>
    rw [codeErase]
    by_cases hk : x.2 = k
    · rw [if_pos hk, List.eraseP_cons_of_pos (by simpa using hk), ← h x b c zs rfl hk]
    · rw [if_neg hk, List.eraseP_cons (a := x)]; simp [hk]
  | [], _ => rfl
  | [_], _ => rfl
  | [_, _], _ => rfl

/-- the code's state agrees with the specification -/
private structure Agrees (s : PAbs V P) (xs lo hi : List (V × P)) : Prop where
  same : s.xs = xs
  mins : IsCache true lo s.minP
  maxs : IsCache false hi s.maxP
  sublo : xs ⊆ lo
  subhi : xs ⊆ hi

private theorem fit_sub {α : Type} (cap : Option Nat) (xs : List α) : fit cap xs ⊆ xs := by
  cases cap with
  | none => exact List.Subset.refl _
  | some c => exact List.take_subset c xs

/-- a call that is not a faulty `dequeue` -/
private theorem step_good {cap : Option Nat} {s : PAbs V P} {xs lo hi : List (V × P)}
    (A : Agrees s xs lo hi) (op : PQOp V P)
    (h : ∀ low, op = .dequeue low → xs ≠ [] →
      ¬ lost low xs (if low then lo else hi) ∧ ¬ mixesUp low xs) :
    (op ≠ .repr → (codeStep cap op s).1 = (prioStep cap op xs).1) ∧
    Agrees (codeStep cap op s).2 (prioStep cap op xs).2 (remember cap op xs true lo)
      (remember cap op xs false hi) := by
  obtain ⟨rfl, h1, h2, h3, h4⟩ := A
  cases op with
  | enqueue item prio =>
    simp only [codeStep, prioStep, remember]
    cases storeItem item with
    | error e => exact ⟨fun _ => rfl, rfl, h1, h2, h3, h4⟩
    | ok v =>
      cases givenPrio prio with
      | error e => exact ⟨fun _ => rfl, rfl, h1, h2, h3, h4⟩
      | ok p =>
        refine ⟨fun _ => rfl, rfl, h1.cons_min v p, h2.cons_max v p, ?_, ?_⟩
        · exact List.Subset.trans (fit_sub _ _) (List.cons_subset_cons _ h3)
        · exact List.Subset.trans (fit_sub _ _) (List.cons_subset_cons _ h4)
  | dequeue low =>
    by_cases hx : s.xs = []
    · have hr : ∀ (l : Bool) (ps : List (V × P)), remember cap (.dequeue low) s.xs l ps = ps := by
        intro l ps; simp [remember, hx]
      rw [hr, hr]
      simp only [codeStep, prioStep, hx, List.isEmpty_nil, if_true, List.find?_nil, Option.map_none,
        List.eraseP_nil]
      exact ⟨fun _ => by simp, hx, h1, h2, by simp, by simp⟩
    · obtain ⟨hl, hm⟩ := h low rfl hx
      have hc : IsCache low (if low then lo else hi) (if low then s.minP else s.maxP) := by
        cases low
        · exact h2
        · exact h1
      have hsub : s.xs ⊆ (if low then lo else hi) := by
        cases low
        · exact h4
        · exact h3
      rw [lost_iff hc hx hsub] at hl
      obtain ⟨x, hf⟩ := Option.ne_none_iff_exists'.1 hl
      have hmem : ∃ z ∈ s.xs, z.2 = if low then s.minP else s.maxP :=
        ⟨x, List.mem_of_find?_eq_some hf, by simpa using List.find?_some hf⟩
      have hbest := fun y (hy : y ∈ s.xs) => best_iff hc hsub hmem hy
      have he : codeErase (if low then s.minP else s.maxP) s.xs = s.xs.eraseP (best low s.xs) := by
        rw [eraseP_same hbest]
        refine codeErase_tame fun y b c zs hxs hk => ?_
        by_contra hb
        apply hm
        have hy := hbest y (by rw [hxs]; simp)
        rw [hxs] at hy ⊢
        exact ⟨by rw [hy]; simpa using hk, hb⟩
      have hf' : s.xs.find? (best low s.xs) = some x := by rw [find_same hbest, hf]
      have hne : s.xs.isEmpty = false := by simpa using hx
      have hsubset : s.xs.eraseP (best low s.xs) ⊆ s.xs := List.eraseP_subset
      simp only [codeStep, hne, Bool.false_eq_true, if_false, hf, he]
      refine ⟨fun _ => by simp [prioStep, hf', hx], rfl, ?_, ?_, ?_, ?_⟩
      · cases low with
        | false => simpa [remember] using h1
        | true =>
          simp only [remember, hx, ne_eq, not_false_eq_true, and_self, if_true, prioStep]
          exact codeCache_isCache _ _
      · cases low with
        | true => simpa [remember] using h2
        | false =>
          simp only [remember, hx, ne_eq, not_false_eq_true, and_self, if_true, prioStep]
          exact codeCache_isCache _ _
      · cases low with
        | false => simpa [remember, prioStep] using List.Subset.trans hsubset h3
        | true => simp [remember, hx]
      · cases low with
        | true => simpa [remember, prioStep] using List.Subset.trans hsubset h4
        | false => simp [remember, hx]
  | clear => exact ⟨fun _ => rfl, rfl, ⟨by simp [remember], fun _ => rfl, by simp [remember]⟩,
      ⟨by simp [remember], fun _ => rfl, by simp [remember]⟩, by simp [prioStep], by simp [prioStep]⟩
  | top | len | isEmpty | isFull => exact ⟨fun _ => rfl, rfl, h1, h2, h3, h4⟩
  | repr => exact ⟨fun h => absurd rfl h, rfl, h1, h2, h3, h4⟩

/-- `dequeue` raises if it looks for a priority that is not held any more -/
private theorem step_raises {cap : Option Nat} {s : PAbs V P} {xs lo hi : List (V × P)}
    (A : Agrees s xs lo hi) (low : Bool) (hx : xs ≠ [])
    (h : lost low xs (if low then lo else hi)) :
    (codeStep cap (.dequeue low) s).1 = .error .unboundLocalError := by
  obtain ⟨rfl, h1, h2, h3, h4⟩ := A
  have hc : IsCache low (if low then lo else hi) (if low then s.minP else s.maxP) := by
    cases low
    · exact h2
    · exact h1
  have hsub : s.xs ⊆ (if low then lo else hi) := by
    cases low
    · exact h4
    · exact h3
  have hne : s.xs.isEmpty = false := by simpa using hx
  rw [lost_iff hc hx hsub] at h
  simp only [codeStep, hne, Bool.false_eq_true, if_false, h]

/-- otherwise it answers as it should -/
private theorem step_answers {cap : Option Nat} {s : PAbs V P} {xs lo hi : List (V × P)}
    (A : Agrees s xs lo hi) (low : Bool)
    (h : ¬ (xs ≠ [] ∧ lost low xs (if low then lo else hi))) :
    (codeStep cap (.dequeue low) s).1 = (prioStep cap (.dequeue low) xs).1 := by
  obtain ⟨rfl, h1, h2, h3, h4⟩ := A
  by_cases hx : s.xs = []
  · simp [codeStep, prioStep, hx]
  have hc : IsCache low (if low then lo else hi) (if low then s.minP else s.maxP) := by
    cases low
    · exact h2
    · exact h1
  have hsub : s.xs ⊆ (if low then lo else hi) := by
    cases low
    · exact h4
    · exact h3
  have hne : s.xs.isEmpty = false := by simpa using hx
  have hl : ¬ lost low s.xs (if low then lo else hi) := fun hl => h ⟨hx, hl⟩
  rw [lost_iff hc hx hsub] at hl
  obtain ⟨x, hf⟩ := Option.ne_none_iff_exists'.1 hl
  have hmem : ∃ z ∈ s.xs, z.2 = if low then s.minP else s.maxP :=
    ⟨x, List.mem_of_find?_eq_some hf, by simpa using List.find?_some hf⟩
  have hf' : s.xs.find? (best low s.xs) = some x := by
    rw [find_same (fun y hy => best_iff hc hsub hmem hy), hf]
  simp only [codeStep, hne, Bool.false_eq_true, if_false, hf, prioStep, hf', Option.map_some]

/-- a faulty `dequeue` raises, or stores a priority with the wrong item -/
private theorem step_bad {cap : Option Nat} {s : PAbs V P} {xs lo hi : List (V × P)}
    (A : Agrees s xs lo hi) (low : Bool) (hx : xs ≠ [])
    (h : lost low xs (if low then lo else hi) ∨ mixesUp low xs) :
    ((codeStep cap (.dequeue low) s).1 = .error .unboundLocalError) ∨
    (∃ x b c zs, xs = x :: b :: c :: zs ∧ b.2 ≠ x.2 ∧
      (codeStep cap (.dequeue low) s).2.xs = (b.1, x.2) :: c :: zs ∧
      (prioStep cap (.dequeue low) xs).2 = b :: c :: zs) := by
  obtain ⟨rfl, h1, h2, h3, h4⟩ := A
  have hc : IsCache low (if low then lo else hi) (if low then s.minP else s.maxP) := by
    cases low
    · exact h2
    · exact h1
  have hsub : s.xs ⊆ (if low then lo else hi) := by
    cases low
    · exact h4
    · exact h3
  have hne : s.xs.isEmpty = false := by simpa using hx
  rw [lost_iff hc hx hsub] at h
  cases hf : s.xs.find? (fun y => decide (y.2 = if low then s.minP else s.maxP)) with
  | none => left; simp only [codeStep, hne, Bool.false_eq_true, if_false, hf]
  | some y =>
    right
    rcases h with h | h
    · rw [hf] at h; exact absurd h (by simp)
    · have hmem : ∃ z ∈ s.xs, z.2 = if low then s.minP else s.maxP :=
        ⟨y, List.mem_of_find?_eq_some hf, by simpa using List.find?_some hf⟩
      match hxs : s.xs, h with
      | x :: b :: c :: zs, h =>
        obtain ⟨hb, hn⟩ := h
        have hk : x.2 = if low then s.minP else s.maxP := by
          have := best_iff hc hsub hmem (x := x) (by rw [hxs]; simp)
          rw [hxs, hb] at this
          simpa using this.symm
        refine ⟨x, b, c, zs, rfl, hn, ?_, ?_⟩
        · rw [hxs] at hf
          simp only [codeStep, hxs, List.isEmpty_cons, Bool.false_eq_true, if_false, hf]
          rw [codeErase, if_pos hk]
        · simp only [prioStep]
          rw [List.eraseP_cons_of_pos hb]

private theorem shows_iff [PyShow P] {q : PQueue V P} {s : PAbs V P} (I : PInv q s)
    {ys : List (V × P)} (hy : ys ≠ []) :
    shows q ys ↔ s.xs ≠ [] ∧ s.xs.map pairText = ys.map pairText := by
  obtain ⟨l, e, g1, g2⟩ := reprP_spec I
  unfold shows
  constructor
  · intro h
    have h := h hy
    rw [e] at h
    have h : l = boxLines '⟶' (ys.map pairText) := by
      have := Except.ok.inj h
      simp only [Prod.mk.injEq, CVal.text.injEq, and_true] at this
      exact this
    by_cases hx : s.xs = []
    · have := openLines_ne (g2 hx) (ys.map pairText)
      rw [h] at this
      exact absurd rfl this
    · exact ⟨hx, boxLines_inj ((g1 hx).symm.trans h)⟩
  · rintro ⟨hx, h⟩ -
    rw [e, g1 hx, h]
    rfl

/-- C19 and C20, exactly: a `PriorityQueue` answers all calls as the specification says, and shows the
items and priorities the specification says, exactly in the histories without faults.  A fault is a
`dequeue` on a queue that is not empty where

* a better priority than all held ones is still remembered: the entry with it was evicted, or dequeued
  in the other direction, since the last `dequeue` in this direction (`lost`, then `dequeue` raises), or
* the most recently added of three or more items is taken, and the one before it has another priority
  (`mixesUp`, then that one gets the wrong priority).

Different priorities have different texts. -/
theorem C19_exact [PyShow P] (hP : Function.Injective (PyShow.str : P → List Char)) {a : CapArg}
    {cap : Option Nat} (ha : initCap a = .ok cap) :
    ∃ q : PQueue V P, PQueue.init a = .ok q ∧ ∀ ops, rightRun cap ops q [] ↔ faultless cap ops [] [] [] := by
  obtain ⟨q, h1, h2, I⟩ := PInv.init (V := V) (P := P) ha
  refine ⟨q, h1, fun ops => ?_⟩
  suffices H : ∀ (ops : List (PQOp V P)) {q : PQueue V P} {s : PAbs V P} {xs lo hi : List (V × P)},
      PInv q s → q.cap = cap → Agrees s xs lo hi → (rightRun cap ops q xs ↔ faultless cap ops xs lo hi) from
    H ops I h2 ⟨rfl, ⟨by simp, fun _ => rfl, by simp⟩, ⟨by simp, fun _ => rfl, by simp⟩, by simp, by simp⟩
  intro ops
  induction ops with
  | nil => intros; exact Iff.rfl
  | cons op ops ih =>
    intro q s xs lo hi I hcap A
    obtain ⟨e1, I1, e2⟩ := prio_step I op
    rw [hcap] at e1 I1 e2
    simp only [rightRun, faultless]
    by_cases hb : ∀ low, op = .dequeue low → xs ≠ [] →
        ¬ lost low xs (if low then lo else hi) ∧ ¬ mixesUp low xs
    · obtain ⟨g1, A1⟩ := step_good (cap := cap) A op hb
      have hs : shows (q.exec op).2 (prioStep cap op xs).2 := by
        by_cases hy : (prioStep cap op xs).2 = []
        · exact fun h => absurd hy h
        · exact (shows_iff I1 hy).2 ⟨by rw [A1.same]; exact hy, by rw [A1.same]⟩
      rw [e1]
      exact ⟨fun h => ⟨hb, (ih I1 e2 A1).1 h.2.2⟩, fun h => ⟨g1, hs, (ih I1 e2 A1).2 h.2⟩⟩
    · refine ⟨fun h => ?_, fun h => absurd h.1 hb⟩
      exfalso
      simp only [not_forall, not_and_or, not_not] at hb
      obtain ⟨low, rfl, hx, hf⟩ := hb
      obtain ⟨k1, k2, -⟩ := h
      have k1 := k1 (by simp)
      rw [e1] at k1
      rcases step_bad (cap := cap) A low hx hf with g | ⟨x, b, c, zs, rfl, hn, g1, g2⟩
      · rw [g] at k1
        simp [prioStep] at k1
      · rw [g2] at k2
        obtain ⟨-, k⟩ := (shows_iff I1 (by simp)).1 k2
        rw [g1] at k
        simp only [List.map_cons, List.cons.injEq] at k
        have k := k.1
        simp only [pairText] at k
        exact hn (hP (List.append_cancel_left k)).symm

/-- C20, exactly: after a history without faults, the next `dequeue` raises (`UnboundLocalError`)
exactly if the queue is not empty and a better priority than all held ones is still remembered.
Otherwise it returns the item it should, and warns if there is none. -/
theorem C20_exact {a : CapArg} {cap : Option Nat} (ha : initCap a = .ok cap) :
    ∃ q : PQueue V P, PQueue.init a = .ok q ∧ ∀ ops low, faultless cap ops [] [] [] →
      let (xs, lo, hi) := recall cap ops [] [] []
      xs = (prioRun cap ops []).2 ∧
      (xs ≠ [] → lost low xs (if low then lo else hi) →
        ((q.execs ops).2.exec (.dequeue low)).1 = .error .unboundLocalError) ∧
      (¬ (xs ≠ [] ∧ lost low xs (if low then lo else hi)) →
        ((q.execs ops).2.exec (.dequeue low)).1 = (prioStep cap (.dequeue low) xs).1) := by
  obtain ⟨q, h1, h2, I⟩ := PInv.init (V := V) (P := P) ha
  refine ⟨q, h1, fun ops low hf => ?_⟩
  have H : ∀ (ops : List (PQOp V P)) {q : PQueue V P} {s : PAbs V P} {xs lo hi : List (V × P)},
      PInv q s → q.cap = cap → Agrees s xs lo hi → faultless cap ops xs lo hi →
      (recall cap ops xs lo hi).1 = (prioRun cap ops xs).2 ∧ (q.execs ops).2.cap = cap ∧
      ∃ s', PInv (q.execs ops).2 s' ∧ Agrees s' (recall cap ops xs lo hi).1
        (recall cap ops xs lo hi).2.1 (recall cap ops xs lo hi).2.2 := by
    intro ops
    induction ops with
    | nil => intro q s xs lo hi I hcap A _; exact ⟨rfl, hcap, s, I, A⟩
    | cons op ops ih =>
      intro q s xs lo hi I hcap A hf
      obtain ⟨e1, I1, e2⟩ := prio_step I op
      rw [hcap] at e1 I1 e2
      obtain ⟨g1, A1⟩ := step_good (cap := cap) A op hf.1
      obtain ⟨i1, i2, i3⟩ := ih I1 e2 A1 hf.2
      exact ⟨i1, i2, i3⟩
  obtain ⟨g1, g2, s, I1, A⟩ := H ops I h2
    ⟨rfl, ⟨by simp, fun _ => rfl, by simp⟩, ⟨by simp, fun _ => rfl, by simp⟩, by simp, by simp⟩ hf
  generalize recall cap ops ([] : List (V × P)) [] [] = t at *
  obtain ⟨xs, lo, hi⟩ := t
  simp only at g1 A ⊢
  have e1 := (prio_step I1 (.dequeue low)).1
  rw [g2] at e1
  refine ⟨g1, fun hx hl => ?_, fun hn => ?_⟩
  · rw [e1]; exact step_raises A low hx hl
  · rw [e1]; exact step_answers A low hn

/-! ## Concrete cases -/

instance (low : Bool) (p q : P) : Decidable (before low p q) := by unfold before; infer_instance

instance (low : Bool) (xs ps : List (V × P)) : Decidable (lost low xs ps) := by
  unfold lost; infer_instance

instance (low : Bool) : (xs : List (V × P)) → Decidable (mixesUp low xs)
  | x :: b :: c :: zs => by unfold mixesUp; infer_instance
  | [] => .isFalse id
  | [_] => .isFalse id
  | [_, _] => .isFalse id

/-- `faultless` can be decided -/
instance decFaultless (cap : Option Nat) : (ops : List (PQOp Val (Fin 21))) →
    (xs lo hi : List (Val × Fin 21)) → Decidable (faultless cap ops xs lo hi)
  | [], _, _, _ => .isTrue trivial
  | op :: ops, xs, lo, hi =>
    have := decFaultless cap ops (prioStep cap op xs).2 (remember cap op xs true lo)
      (remember cap op xs false hi)
    inferInstanceAs (Decidable ((∀ low, op = .dequeue low → xs ≠ [] →
      ¬ lost low xs (if low then lo else hi) ∧ ¬ mixesUp low xs) ∧ _))

/-- priorities print differently -/
example : Function.Injective (PyShow.str : Fin 21 → List Char) := by
  intro a b; revert a b; decide +kernel

/-- a history that switches direction, evicts an item and takes the most recently added of three without
a fault: the evicted item was not better, the priority taken by `dequeue(False)` is held twice, and the
two most recent items have the same priority -/
example :
    let ops := [prioPut 1 9, prioPut 2 3, prioPut 3 9, prioPut 4 9, .dequeue false, .dequeue true,
      .dequeue false]
    faultless (some 3) ops [] [] [] ∧ tryPrio (.num 3) ops = some (prioRun (some 3) ops []).1 := by
  decide +kernel

/-- the histories of `C20_dequeue_raises` and `C19_wrong_item` have faults -/
example : ¬ faultless none [prioPut 1 5, .dequeue false, prioPut 2 7, .dequeue true] [] [] [] ∧
    ¬ faultless (some 1) [prioPut 1 9, prioPut 2 3, .dequeue false] [] [] [] ∧
    ¬ faultless none [prioPut 1 5, prioPut 2 1, prioPut 3 10, .dequeue false] [] [] [] := by
  decide +kernel

/-- a fault that only the drawing tells: item 2 now has priority 10 -/
example : tryPrio .inf [prioPut 1 5, prioPut 2 1, prioPut 3 10, .dequeue false] =
      some (prioRun none [prioPut 1 5, prioPut 2 1, prioPut 3 10, .dequeue false] []).1 ∧
    drawnP .inf [prioPut 1 5, prioPut 2 1, prioPut 3 10, .dequeue false] =
      some "─┬────────┬───────┬─\n⟶│ 2|P:10 │ 1|P:5 │⟶\n─┴────────┴───────┴─" := by decide +kernel

end Extra
