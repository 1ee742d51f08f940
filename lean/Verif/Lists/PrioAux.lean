import Verif.Lists.PrioRefine

/-! # What the priority queue code does right, and when (helper lemmas) -/

set_option linter.unusedSectionVars false
set_option linter.unusedSimpArgs false

namespace Extra
variable {V P : Type} [PyData V] [PyShow V] [LinearOrder P] [BoundedOrder P] [Inhabited P]

/-- `m` is the extreme priority among `xs` -/
def IsCache (low : Bool) (xs : List (V × P)) (m : P) : Prop :=
  (∀ y ∈ xs, if low then m ≤ y.2 else y.2 ≤ m) ∧
  (xs = [] → m = if low then ⊤ else ⊥) ∧ (xs ≠ [] → ∃ y ∈ xs, y.2 = m)

theorem foldl_min : ∀ (ps : List P) (acc : P),
    ps.foldl (fun acc p => min p acc) acc ≤ acc ∧
    (∀ p ∈ ps, ps.foldl (fun acc p => min p acc) acc ≤ p) ∧
    (ps.foldl (fun acc p => min p acc) acc = acc ∨ ps.foldl (fun acc p => min p acc) acc ∈ ps)
  | [], acc => ⟨le_refl _, by simp, Or.inl rfl⟩
  | p :: ps, acc => by
    obtain ⟨h1, h2, h3⟩ := foldl_min ps (min p acc)
    simp only [List.foldl_cons]
    refine ⟨h1.trans (min_le_right _ _), ?_, ?_⟩
    · intro x hx
      rcases List.mem_cons.1 hx with rfl | hx
      · exact h1.trans (min_le_left _ _)
      · exact h2 x hx
    · rcases h3 with h3 | h3
      · rw [h3]
        rcases min_choice p acc with h4 | h4
        · right; rw [h4]; simp
        · left; exact h4
      · right; exact List.mem_cons_of_mem _ h3

theorem foldl_max : ∀ (ps : List P) (acc : P),
    acc ≤ ps.foldl (fun acc p => max p acc) acc ∧
    (∀ p ∈ ps, p ≤ ps.foldl (fun acc p => max p acc) acc) ∧
    (ps.foldl (fun acc p => max p acc) acc = acc ∨ ps.foldl (fun acc p => max p acc) acc ∈ ps)
  | [], acc => ⟨le_refl _, by simp, Or.inl rfl⟩
  | p :: ps, acc => by
    obtain ⟨h1, h2, h3⟩ := foldl_max ps (max p acc)
    simp only [List.foldl_cons]
    refine ⟨(le_max_right _ _).trans h1, ?_, ?_⟩
    · intro x hx
      rcases List.mem_cons.1 hx with rfl | hx
      · exact (le_max_left _ _).trans h1
      · exact h2 x hx
    · rcases h3 with h3 | h3
      · rw [h3]
        rcases max_choice p acc with h4 | h4
        · right; rw [h4]; simp
        · left; exact h4
      · right; exact List.mem_cons_of_mem _ h3

theorem codeCache_isCache (low : Bool) (xs : List (V × P)) : IsCache low xs (codeCache low xs) := by
  cases low with
  | true =>
    obtain ⟨_, h2, h3⟩ := foldl_min (xs.map Prod.snd) (⊤ : P)
    have hc : codeCache true xs = (xs.map Prod.snd).foldl (fun acc p => min p acc) ⊤ := rfl
    rw [← hc] at h2 h3
    refine ⟨fun y hy => by simpa using h2 _ (List.mem_map_of_mem hy), ?_, ?_⟩
    · rintro rfl; rfl
    · intro hne
      rcases h3 with h3 | h3
      · obtain ⟨y, hy⟩ := List.exists_mem_of_ne_nil _ hne
        refine ⟨y, hy, ?_⟩
        have := h2 _ (List.mem_map_of_mem hy)
        rw [h3] at this ⊢
        exact top_le_iff.1 this
      · obtain ⟨y, hy, e⟩ := List.mem_map.1 h3
        exact ⟨y, hy, e⟩
  | false =>
    obtain ⟨_, h2, h3⟩ := foldl_max (xs.map Prod.snd) (⊥ : P)
    have hc : codeCache false xs = (xs.map Prod.snd).foldl (fun acc p => max p acc) ⊥ := rfl
    rw [← hc] at h2 h3
    refine ⟨fun y hy => by simpa using h2 _ (List.mem_map_of_mem hy), ?_, ?_⟩
    · rintro rfl; rfl
    · intro hne
      rcases h3 with h3 | h3
      · obtain ⟨y, hy⟩ := List.exists_mem_of_ne_nil _ hne
        refine ⟨y, hy, ?_⟩
        have := h2 _ (List.mem_map_of_mem hy)
        rw [h3] at this ⊢
        exact le_bot_iff.1 this
      · obtain ⟨y, hy, e⟩ := List.mem_map.1 h3
        exact ⟨y, hy, e⟩

theorem IsCache.cons_min {xs : List (V × P)} {m : P} (h : IsCache true xs m) (v : V) (p : P) :
    IsCache true ((v, p) :: xs) (min m p) := by
  obtain ⟨h1, h2, h3⟩ := h
  simp only [if_true] at h1 h2
  refine ⟨?_, by simp, fun _ => ?_⟩
  · intro y hy
    rcases List.mem_cons.1 hy with rfl | hy
    · simp
    · exact (min_le_left _ _).trans (h1 y hy)
  · rcases min_choice m p with h4 | h4
    · by_cases hx : xs = []
      · rw [h2 hx]; exact ⟨(v, p), by simp, by simp⟩
      · obtain ⟨y, hy, e⟩ := h3 hx
        exact ⟨y, by simp [hy], by rw [h4, e]⟩
    · exact ⟨(v, p), by simp, h4.symm⟩

theorem IsCache.cons_max {xs : List (V × P)} {m : P} (h : IsCache false xs m) (v : V) (p : P) :
    IsCache false ((v, p) :: xs) (max m p) := by
  obtain ⟨h1, h2, h3⟩ := h
  simp only [Bool.false_eq_true, if_false] at h1 h2
  refine ⟨?_, by simp, fun _ => ?_⟩
  · intro y hy
    rcases List.mem_cons.1 hy with rfl | hy
    · simp
    · exact (h1 y hy).trans (le_max_left _ _)
  · rcases max_choice m p with h4 | h4
    · by_cases hx : xs = []
      · rw [h2 hx]; exact ⟨(v, p), by simp, by simp⟩
      · obtain ⟨y, hy, e⟩ := h3 hx
        exact ⟨y, by simp [hy], by rw [h4, e]⟩
    · exact ⟨(v, p), by simp, h4.symm⟩

/-- an entry is extreme iff it has the cached priority -/
theorem IsCache.best {low : Bool} {xs : List (V × P)} {m : P} (h : IsCache low xs m) {x : V × P}
    (hx : x ∈ xs) : best low xs x = decide (x.2 = m) := by
  obtain ⟨h1, _, h3⟩ := h
  obtain ⟨y, hy, e⟩ := h3 (List.ne_nil_of_mem hx)
  have hx1 := h1 x hx
  cases low with
  | true =>
    simp only [if_true] at h1 hx1
    rw [Bool.eq_iff_iff]
    simp only [Extra.best, if_true, List.all_eq_true, decide_eq_true_eq]
    constructor
    · intro h4; exact le_antisymm (e ▸ h4 y hy) hx1
    · rintro h4 z hz; rw [h4]; exact h1 z hz
  | false =>
    simp only [Bool.false_eq_true, if_false] at h1 hx1
    rw [Bool.eq_iff_iff]
    simp only [Extra.best, Bool.false_eq_true, if_false, List.all_eq_true, decide_eq_true_eq]
    constructor
    · intro h4; exact le_antisymm hx1 (e ▸ h4 y hy)
    · rintro h4 z hz; rw [h4]; exact h1 z hz

theorem find?_congr' {α : Type} {p q : α → Bool} : ∀ {xs : List α}, (∀ x ∈ xs, p x = q x) →
    xs.find? p = xs.find? q
  | [], _ => rfl
  | x :: xs, h => by
    simp only [List.find?_cons, h x (by simp), find?_congr' (fun y hy => h y (List.mem_cons_of_mem _ hy))]

theorem eraseP_congr' {α : Type} {p q : α → Bool} : ∀ {xs : List α}, (∀ x ∈ xs, p x = q x) →
    xs.eraseP p = xs.eraseP q
  | [], _ => rfl
  | x :: xs, h => by
    simp only [List.eraseP_cons, h x (by simp), eraseP_congr' (fun y hy => h y (List.mem_cons_of_mem _ hy))]

theorem codeErase_eq {key : P} {xs : List (V × P)}
    (h : ∀ x ys, xs = x :: ys → 2 ≤ ys.length → x.2 ≠ key) :
    codeErase key xs = xs.eraseP (fun y => decide (y.2 = key)) := by
  match xs, h with
  | [], _ => rfl
  | [_], _ => rfl
  | [_, _], _ => rfl
  | x :: b :: c :: bs, h =>
    have h1 := h x (b :: c :: bs) rfl (by simp)
    have h2 : ¬ (fun y : V × P => decide (y.2 = key)) x = true := by simpa using h1
    rw [codeErase, if_neg h1, List.eraseP_cons_of_neg (p := fun y : V × P => decide (y.2 = key)) h2]

theorem IsCache.find {low : Bool} {xs : List (V × P)} {m : P} (h : IsCache low xs m)
    (hne : xs ≠ []) : ∃ x ∈ xs, xs.find? (fun y => decide (y.2 = m)) = some x ∧ x.2 = m := by
  obtain ⟨y, hy, e⟩ := h.2.2 hne
  cases hf : xs.find? (fun y => decide (y.2 = m)) with
  | none => exact absurd e (by simpa using List.find?_eq_none.1 hf y hy)
  | some x => exact ⟨x, List.mem_of_find?_eq_some hf, rfl, by simpa using List.find?_some hf⟩

theorem codeErase_length {key : P} {xs : List (V × P)} (h : ∃ x ∈ xs, x.2 = key) :
    (codeErase key xs).length = xs.length - 1 := by
  have he : (xs.eraseP (fun y => decide (y.2 = key))).length = xs.length - 1 := by
    obtain ⟨x, hx, e⟩ := h
    exact List.length_eraseP_of_mem hx (by simpa using e)
  match xs, he with
  | [], he => exact he
  | [_], he => exact he
  | [_, _], he => exact he
  | x :: b :: c :: bs, he =>
    rw [codeErase]
    split
    · simp
    · rename_i hk
      have h2 : ¬ (fun y : V × P => decide (y.2 = key)) x = true := by simpa using hk
      rw [List.eraseP_cons_of_neg (p := fun y : V × P => decide (y.2 = key)) h2] at he
      exact he

/-- the caches the history may rely on are right -/
def CacheOK (a b : Bool) (s : PAbs V P) : Prop :=
  (a = true → IsCache true s.xs s.minP) ∧ (b = true → IsCache false s.xs s.maxP)

/-- enqueuing into a queue that is not full -/
theorem fit_room {α : Type} {cap : Option Nat} {xs : List α} (v : α)
    (hle : ∀ c, cap = some c → xs.length ≤ c) (hf : fullAt cap xs.length = false) :
    fit cap (v :: xs) = v :: xs := by
  cases cap with
  | none => rfl
  | some c =>
    have := hle c rfl
    simp [fullAt] at hf
    simp only [fit]; exact List.take_of_length_le (by simp; omega)

theorem fit_full_length {α : Type} {cap : Option Nat} {xs : List α} (v : α)
    (hf : fullAt cap xs.length = true) : (fit cap (v :: xs)).length = xs.length := by
  simp only [fullAt, decide_eq_true_eq] at hf
  subst hf
  simp [fit]

/-- what a dequeue by the code does when its cache is right -/
theorem codeStep_dequeue {cap : Option Nat} {low : Bool} {s : PAbs V P} (hne : s.xs ≠ [])
    (h : IsCache low s.xs (if low then s.minP else s.maxP)) :
    ∃ x ∈ s.xs, s.xs.find? (best low s.xs) = some x ∧
      x.2 = (if low then s.minP else s.maxP) ∧
      (codeStep cap (.dequeue low) s).1 = .ok (.item (some x.1), false) ∧
      (codeStep cap (.dequeue low) s).2.xs = codeErase (if low then s.minP else s.maxP) s.xs ∧
      CacheOK low (!low) (codeStep cap (.dequeue low) s).2 := by
  obtain ⟨x, hx, hf, hk⟩ := h.find hne
  have hb : s.xs.find? (best low s.xs) = some x := by
    rw [← hf]; exact find?_congr' (fun y hy => h.best hy)
  have he : s.xs.isEmpty = false := by cases hs : s.xs <;> simp_all
  refine ⟨x, hx, hb, hk, ?_⟩
  simp only [codeStep, he, Bool.false_eq_true, if_false, hf]
  refine ⟨trivial, trivial, ?_, ?_⟩
  · intro hl; subst hl; exact codeCache_isCache true _
  · intro hl
    have : low = false := by simpa using hl
    subst this; exact codeCache_isCache false _

/-- steady histories: dequeues succeed -/
theorem steady_run (cap : Option Nat) : ∀ (ops : List (PQOp V P)) (a b : Bool) (s : PAbs V P),
    (∀ c, cap = some c → s.xs.length ≤ c) → CacheOK a b s → steady cap a b s.xs.length ops →
    ∀ p ∈ ops.zip (codeRun cap ops s).1, ∀ low, p.1 = .dequeue low →
      ∃ v w, p.2 = .ok (.item v, w) ∧ (w = false → v ≠ none)
  | [], _, _, _, _, _, _ => by simp
  | op :: ops, a, b, s, hle, hc, hs => by
    intro p hp
    simp only [codeRun, List.zip_cons_cons, List.mem_cons] at hp
    cases op with
    | enqueue item prio =>
      rcases hp with rfl | hp
      · intro low hl; cases hl
      · simp only [codeStep] at hp
        simp only [steady] at hs
        cases h1 : storeItem item with
        | error e =>
          simp only [h1] at hp hs
          exact steady_run cap ops a b s hle hc hs p hp
        | ok v =>
          cases h2 : givenPrio prio with
          | error e =>
            simp only [h1, h2] at hp hs
            exact steady_run cap ops a b s hle hc hs p hp
          | ok pr =>
            simp only [h1, h2] at hp hs
            cases hf : fullAt cap s.xs.length with
            | true =>
              rw [hf] at hs
              simp only [if_true] at hs
              refine steady_run cap ops false false _ ?_ ⟨by simp, by simp⟩ ?_ p hp
              · intro c hcc; rw [hcc]; exact fit_length_le _
              · rw [fit_full_length _ hf]; exact hs
            | false =>
              rw [hf] at hs
              simp only [Bool.false_eq_true, if_false] at hs
              have hr := fit_room (v, pr) hle hf
              rw [hr] at hp
              refine steady_run cap ops a b _ ?_ ?_ ?_ p hp
              · intro c hcc
                have h3 := hle c hcc
                subst hcc
                simp [fullAt] at hf
                simp; omega
              · exact ⟨fun ha => (hc.1 ha).cons_min v pr, fun hb => (hc.2 hb).cons_max v pr⟩
              · simpa using hs
    | dequeue low =>
      by_cases hx : s.xs = []
      · have hstep : codeStep cap (.dequeue low) s = (.ok (.item none, true), s) := by
          simp [codeStep, hx]
        rw [hstep] at hp
        simp only [steady, hx, List.length_nil, if_true] at hs
        rcases hp with rfl | hp
        · intro _ _; exact ⟨none, true, rfl, by simp⟩
        · exact steady_run cap ops a b s hle hc (by rw [hx]; exact hs) p hp
      · have hn : s.xs.length ≠ 0 := fun e => hx (List.eq_nil_of_length_eq_zero e)
        simp only [steady, hn, if_false] at hs
        have hcache : IsCache low s.xs (if low then s.minP else s.maxP) := by
          cases low with
          | true => exact hc.1 hs.1
          | false => exact hc.2 hs.1
        obtain ⟨x, hxm, _, hk, h1, h2, h3⟩ := codeStep_dequeue (cap := cap) hx hcache
        have hlen : (codeStep cap (.dequeue low) s).2.xs.length = s.xs.length - 1 := by
          rw [h2]; exact codeErase_length ⟨x, hxm, hk⟩
        rcases hp with rfl | hp
        · intro _ _; exact ⟨some x.1, false, h1, by simp⟩
        · refine steady_run cap ops low (!low) _ ?_ h3 (by rw [hlen]; exact hs.2) p hp
          intro c hcc
          have := hle c hcc
          omega
    | clear =>
      rcases hp with rfl | hp
      · intro low hl; cases hl
      · refine steady_run cap ops true true ⟨[], ⊤, ⊥, none⟩ (by simp) ?_ hs p hp
        exact ⟨fun _ => ⟨by simp, fun _ => rfl, by simp⟩, fun _ => ⟨by simp, fun _ => rfl, by simp⟩⟩
    | top | len | isEmpty | isFull | repr =>
      rcases hp with rfl | hp
      · intro low hl; cases hl
      · exact steady_run cap ops a b s hle hc hs p hp

/-- steady histories that never take the newest of three or more: the code follows the
specification -/
theorem tame_run (cap : Option Nat) : ∀ (ops : List (PQOp V P)) (a b : Bool) (s : PAbs V P),
    (∀ c, cap = some c → s.xs.length ≤ c) → CacheOK a b s → steady cap a b s.xs.length ops →
    oldTaken cap ops s.xs →
    (codeRun cap ops s).1 = (prioRun cap ops s.xs).1 ∧
      (codeRun cap ops s).2.xs = (prioRun cap ops s.xs).2
  | [], _, _, _, _, _, _, _ => ⟨rfl, rfl⟩
  | op :: ops, a, b, s, hle, hc, hs, ho => by
    obtain ⟨o1, o2, o3⟩ := ho
    -- it is enough to look at one step
    have key : ∀ (a' b' : Bool) (s' : PAbs V P),
        codeStep cap op s = ((prioStep cap op s.xs).1, s') →
        s'.xs = (prioStep cap op s.xs).2 → (∀ c, cap = some c → s'.xs.length ≤ c) →
        CacheOK a' b' s' → steady cap a' b' s'.xs.length ops →
        (codeRun cap (op :: ops) s).1 = (prioRun cap (op :: ops) s.xs).1 ∧
        (codeRun cap (op :: ops) s).2.xs = (prioRun cap (op :: ops) s.xs).2 := by
      intro a' b' s' e1 e2 hle' hc' hs'
      rw [← e2] at o3
      obtain ⟨i1, i2⟩ := tame_run cap ops a' b' s' hle' hc' hs' o3
      rw [e2] at i1 i2
      simp only [codeRun, prioRun, e1, i1, i2, and_self]
    cases op with
    | enqueue item prio =>
      simp only [steady] at hs
      cases h1 : storeItem item with
      | error e =>
        simp only [h1] at hs
        exact key a b s (by simp [codeStep, prioStep, h1]) (by simp [prioStep, h1]) hle hc hs
      | ok v =>
        cases h2 : givenPrio prio with
        | error e =>
          simp only [h1, h2] at hs
          exact key a b s (by simp [codeStep, prioStep, h1, h2]) (by simp [prioStep, h1, h2]) hle hc hs
        | ok pr =>
          simp only [h1, h2] at hs
          cases hf : fullAt cap s.xs.length with
          | true =>
            rw [hf] at hs
            simp only [if_true] at hs
            refine key false false ⟨fit cap ((v, pr) :: s.xs), min s.minP pr, max s.maxP pr, s.st⟩
              (by simp only [codeStep, prioStep, h1, h2])
              (by simp only [prioStep, h1, h2]) ?_ ⟨by simp, by simp⟩ ?_
            · intro c hcc; rw [hcc]; exact fit_length_le _
            · rw [fit_full_length _ hf]; exact hs
          | false =>
            rw [hf] at hs
            simp only [Bool.false_eq_true, if_false] at hs
            have hr := fit_room (v, pr) hle hf
            refine key a b ⟨fit cap ((v, pr) :: s.xs), min s.minP pr, max s.maxP pr, s.st⟩
              (by simp only [codeStep, prioStep, h1, h2])
              (by simp only [prioStep, h1, h2]) ?_ ?_ ?_
            · intro c hcc
              rw [hr]
              have h3 := hle c hcc
              subst hcc
              simp [fullAt] at hf
              simp; omega
            · rw [hr]
              exact ⟨fun ha => (hc.1 ha).cons_min v pr, fun hb => (hc.2 hb).cons_max v pr⟩
            · rw [hr]; simpa using hs
    | dequeue low =>
      by_cases hx : s.xs = []
      · simp only [steady, hx, List.length_nil, if_true] at hs
        exact key a b s (by simp [codeStep, prioStep, hx]) (by simp [prioStep, hx]) hle hc
          (by rw [hx]; exact hs)
      · have hn : s.xs.length ≠ 0 := fun e => hx (List.eq_nil_of_length_eq_zero e)
        simp only [steady, hn, if_false] at hs
        have hcache : IsCache low s.xs (if low then s.minP else s.maxP) := by
          cases low with
          | true => exact hc.1 hs.1
          | false => exact hc.2 hs.1
        obtain ⟨x, hxm, hb, hk, h1, h2, h3⟩ := codeStep_dequeue (cap := cap) hx hcache
        have hlen : (codeStep cap (.dequeue low) s).2.xs.length = s.xs.length - 1 := by
          rw [h2]; exact codeErase_length ⟨x, hxm, hk⟩
        have he : s.xs.isEmpty = false := by cases hs : s.xs <;> simp_all
        have hspec : (prioStep cap (.dequeue low) s.xs).1 = .ok (.item (some x.1), false) := by
          simp only [prioStep, hb, he, Option.map_some]
        refine key low (!low) (codeStep cap (.dequeue low) s).2 ?_ ?_ ?_ h3 (by rw [hlen]; exact hs.2)
        · rw [hspec, ← h1]
        · rw [h2, codeErase_eq]
          · simp only [prioStep]
            exact (eraseP_congr' (fun y hy => hcache.best hy)).symm
          · intro y ys e hl
            have h5 := o2 low rfl
            match ys, hl with
            | b :: c :: bs, _ =>
              simp only [e, takesNewest] at h5
              rw [← e, hcache.best (by rw [e]; simp)] at h5
              simpa using h5
        · intro c hcc
          have := hle c hcc
          omega
    | clear =>
      exact key true true ⟨[], ⊤, ⊥, none⟩ rfl rfl (by simp)
        ⟨fun _ => ⟨by simp, fun _ => rfl, by simp⟩, fun _ => ⟨by simp, fun _ => rfl, by simp⟩⟩ hs
    | repr => exact absurd rfl o1
    | top | len | isEmpty | isFull =>
      exact key a b s rfl rfl hle hc hs

end Extra
