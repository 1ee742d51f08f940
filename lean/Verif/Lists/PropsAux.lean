import Verif.Lists.Reach

/-! # Helper lemmas for the property theorems of the linked lists -/

set_option linter.unusedSectionVars false
set_option linter.unusedSimpArgs false
attribute [local irreducible] Extra.upd

namespace Extra
variable {V X : Type} [PyData V] [Inhabited X]
variable {k : Kind} {w : World V X} {s s' : AState V}

/-- calls that raise leave every sequence as it was -/
theorem astep_error [PyOrd V] {op : Op V} {rs : List (Res V)} {e : Err}
    (h : astep k op s = some (rs, s')) (he : (.error e : Res V) ∈ rs) : s' = s := by
  have hbind : ∀ {i : Nat} {f : List V → Option (List (Res V) × AState V)},
      (s.at? i >>= f) = some (rs, s') → ∃ ys, f ys = some (rs, s') := by
    intro i f h
    simp only [Option.bind_eq_bind, Option.bind_eq_some_iff] at h
    obtain ⟨ys, _, h⟩ := h
    exact ⟨ys, h⟩
  have hone : ∀ {r : Res V}, one r s = some (rs, s') → s' = s := fun e => one_at? (s := s) e
  have hupd : ∀ {i : Nat} {r}, specUpd s i r = some (rs, s') → s' = s := by
    intro i r h
    cases r with
    | error e => exact hone h
    | ok ys =>
      simp only [specUpd, one, Option.some.injEq, Prod.mk.injEq] at h
      obtain ⟨rfl, _⟩ := h
      simp at he
  have hnew : ∀ {r}, specNew s r = some (rs, s') → s' = s := by
    intro r h
    cases r with
    | error e => exact hone h
    | ok ys =>
      simp only [specNew, one, Option.some.injEq, Prod.mk.injEq] at h
      obtain ⟨rfl, _⟩ := h
      simp at he
  cases op <;> simp only [astep] at h
  case new => exact hnew h
  case setItem =>
    obtain ⟨ys, h⟩ := hbind h
    split at h
    · split at h
      · exact hone h
      · exact hone h
      · simp only [Option.some.injEq, Prod.mk.injEq] at h
        exact h.2.symm
      · simp only [Option.some.injEq, Prod.mk.injEq] at h
        exact h.2.symm
    · exact hupd h
  case rotate =>
    obtain ⟨ys, h⟩ := hbind h
    split at h
    · exact hone h
    · exact hone h
    · split at h
      · exact hone h
      · split at h
        · exact hupd h
        · exact hnew h
  case getItem =>
    obtain ⟨ys, h⟩ := hbind h
    split at h
    · exact hone h
    · exact hnew h
    · exact hone h
  case split =>
    obtain ⟨ys, h⟩ := hbind h
    split at h
    · exact hone h
    · simp only [one, Option.some.injEq, Prod.mk.injEq] at h
      obtain ⟨rfl, _⟩ := h
      simp at he
  case extend =>
    obtain ⟨ys, h⟩ := hbind h
    obtain ⟨zs, h⟩ := hbind h
    split at h
    · exact hone h
    · split at h
      · cases h
      · split at h
        · simp only [one, Option.some.injEq, Prod.mk.injEq] at h
          obtain ⟨rfl, _⟩ := h
          simp at he
        · simp only [one, Option.some.injEq, Prod.mk.injEq] at h
          obtain ⟨rfl, _⟩ := h
          simp at he
  case copy => obtain ⟨ys, h⟩ := hbind h; exact hnew h
  case reverse => obtain ⟨ys, h⟩ := hbind h; exact hnew h
  case toList => obtain ⟨ys, h⟩ := hbind h; exact hone h
  case len => obtain ⟨ys, h⟩ := hbind h; exact hone h
  case isEmpty => obtain ⟨ys, h⟩ := hbind h; exact hone h
  case contains => obtain ⟨ys, h⟩ := hbind h; exact hone h
  case count => obtain ⟨ys, h⟩ := hbind h; exact hone h
  case eq => obtain ⟨ys, h⟩ := hbind h; obtain ⟨ys, h⟩ := hbind h; exact hone h
  case ne => obtain ⟨ys, h⟩ := hbind h; obtain ⟨ys, h⟩ := hbind h; exact hone h
  case lt => obtain ⟨ys, h⟩ := hbind h; obtain ⟨ys, h⟩ := hbind h; exact hone h
  case le => obtain ⟨ys, h⟩ := hbind h; obtain ⟨ys, h⟩ := hbind h; exact hone h
  case gt => obtain ⟨ys, h⟩ := hbind h; obtain ⟨ys, h⟩ := hbind h; exact hone h
  case ge => obtain ⟨ys, h⟩ := hbind h; obtain ⟨ys, h⟩ := hbind h; exact hone h
  all_goals obtain ⟨ys, h⟩ := hbind h; exact hupd h

theorem Reach.toList [PyOrd V] (R : Reach k w s) {i : Nat} {xs : List V} (hi : s.at? i = some xs) :
    (exec k (.toList i) w).1 = .ok (.list (xs.map some)) ∧ Reach k (exec k (.toList i) w).2 s :=
  R.step_one (by simp only [astep, hi, specRead]; rfl)

theorem specItems_val (items : List V) :
    specItems (items.map .val) = .ok (items.map PyData.norm) := by
  induction items with
  | nil => rfl
  | cons v vs ih => simp [specItems, specItem, ih]

theorem at?_append_new {ys : List V} (t : List (Option (List V))) :
    AState.at? (s ++ some ys :: t) s.length = some ys := by simp [AState.at?]

theorem at?_append_new2 {ys zs : List V} :
    AState.at? (s ++ [some ys, some zs]) (s.length + 1) = some zs := by simp [AState.at?]

theorem at?_append_old {i : Nat} {xs : List V} (h : s.at? i = some xs) (t : AState V) :
    AState.at? (s ++ t) i = some xs := by
  rw [AState.at?, List.getElem?_append_left (at?_lt h)]; exact h

theorem specRotate_left (xs : List V) (d : Nat) :
    specRotate xs d .left = xs.drop (d % xs.length) ++ xs.take (d % xs.length) := by
  simp only [specRotate, List.rotateLeft]
  split
  · rename_i h
    match xs, h with
    | [], _ => simp
    | [x], _ => simp [Nat.mod_one]
  · rfl

theorem specRotate_right (xs : List V) (d : Nat) :
    specRotate xs d .right = xs.drop (xs.length - d % xs.length) ++
        xs.take (xs.length - d % xs.length) := by
  simp only [specRotate, List.rotateRight]
  split
  · rename_i h
    match xs, h with
    | [], _ => simp
    | [x], _ => simp [Nat.mod_one]
  · rfl

theorem specRotate_undo (xs : List V) (d : Nat) :
    specRotate (specRotate xs d .left) d .right = xs := by
  have hl : (specRotate xs d .left).length = xs.length := by
    rw [specRotate_left, List.length_append, List.length_drop, List.length_take]
    by_cases h0 : xs.length = 0
    · omega
    · have := Nat.mod_lt d (Nat.pos_of_ne_zero h0); omega
  rw [specRotate_right, hl, specRotate_left]
  have hd : (xs.drop (d % xs.length)).length = xs.length - d % xs.length := List.length_drop
  rw [← hd, List.drop_left, List.take_left, List.take_append_drop]

/-- without a deciding pair -/
theorem specOrd_none {op : V → V → Except Err Bool} {xs ys : List V} {p q : Prop} [Decidable p]
    [Decidable q]
    (h : (xs.zip ys).find? (fun p => decide (p.1 ≠ p.2 ∧ op p.1 p.2 ≠ .ok true)) = none) :
    specOrd op xs ys p q = .ok (if ∀ p ∈ xs.zip ys, p.1 = p.2 then decide p else decide q) := by
  simp only [specOrd, h]

theorem specOrd_some {op : V → V → Except Err Bool} {xs ys : List V} {p q : Prop} [Decidable p]
    [Decidable q] {z : V × V}
    (h : (xs.zip ys).find? (fun p => decide (p.1 ≠ p.2 ∧ op p.1 p.2 ≠ .ok true)) = some z) :
    specOrd op xs ys p q = (match op z.1 z.2 with | .error e => .error e | .ok _ => .ok false) := by
  simp only [specOrd, h]
  rfl

theorem range'_pick (xs : List V) : ∀ (m a : Nat), a + m ≤ xs.length →
    (List.range' a m).filterMap (fun x => xs[x]?) = (xs.drop a).take m
  | 0, a, _ => by simp
  | m + 1, a, ha => by
    have hlt : a < xs.length := by omega
    rw [List.range'_succ, List.filterMap_cons, List.getElem?_eq_getElem hlt]
    simp only
    rw [range'_pick xs m (a + 1) (by omega), List.drop_eq_getElem_cons hlt, List.take_succ_cons]

/-! ## backward walks -/

/-- what a walk along `_prev` sees, for at most `n` nodes -/
def walkBack (h : Heap V X) : Nat → Option Addr → List (Option V)
  | 0, _ => []
  | _ + 1, none => []
  | n + 1, some a => (h.node a).data :: walkBack h n (h.node a).prev

theorem PLnk_append' {h : Heap V X} : ∀ {as : List Addr} {p : Option Addr} {b : Addr},
    PLnk h p (as ++ [b]) → (h.node b).prev = as.getLast?.or p ∧ PLnk h p as
  | [], p, b, hp => by simpa [PLnk] using hp
  | a :: as, p, b, hp => by
    obtain ⟨h1, h2⟩ := hp
    obtain ⟨h3, h4⟩ := PLnk_append' h2
    refine ⟨?_, h1, h4⟩
    rw [h3]; cases as <;> simp [List.getLast?_cons]

theorem walkBack_spec {h : Heap V X} : ∀ (n : Nat) (ns : List Addr), PLnk h none ns →
    ns.length ≤ n → walkBack h n ns.getLast? = (ns.map (fun a => (h.node a).data)).reverse
  | 0, ns, _, hn => by
    have : ns = [] := List.eq_nil_of_length_eq_zero (by omega)
    subst this; rfl
  | n + 1, ns, hp, hn => by
    rcases List.eq_nil_or_concat' ns with rfl | ⟨as, b, rfl⟩
    · rfl
    · obtain ⟨h1, h2⟩ := PLnk_append' hp
      simp only [List.getLast?_append, List.getLast?_singleton, Option.some_or, walkBack,
        List.map_append, List.map_cons, List.map_nil, List.reverse_append, List.reverse_cons,
        List.reverse_nil, List.nil_append, List.singleton_append, List.cons.injEq, true_and]
      rw [h1, Option.or_none]
      simp at hn
      exact walkBack_spec n as h2 (by omega)

/-! ## self-extension -/

/-- a search never ends in a set of nodes closed under `_next` that misses the value -/
theorem searchLoop_diverges {h : Heap V X} {v : V} {S : Addr → Prop}
    (hS : ∀ a, S a → (h.node a).data ≠ some v ∧ ∃ b, (h.node a).next = some b ∧ S b) :
    ∀ (fuel : Nat) (a : Addr), S a → searchLoop v fuel (some a) h = (.error .diverge, h)
  | 0, a, _ => rfl
  | fuel + 1, a, ha => by
    obtain ⟨h1, b, h2, h3⟩ := hS a ha
    simp only [searchLoop, run_bind, run_getNext, h2, run_getData, h1, if_false]
    exact searchLoop_diverges hS fuel b h3

theorem Lnk.next_mem {h : Heap V X} {e : Option Addr} : ∀ {ns : List Addr}, Lnk h ns e →
    ∀ a ∈ ns, (∃ b ∈ ns, (h.node a).next = some b) ∨ ((h.node a).next = e ∧ ns.getLast? = some a)
  | [], _, a, ha => by cases ha
  | b :: bs, hl, a, ha => by
    obtain ⟨h1, h2⟩ := hl
    rcases List.mem_cons.1 ha with rfl | ha
    · cases bs with
      | nil => right; simpa using h1
      | cons c cs => left; exact ⟨c, by simp, by simpa using h1⟩
    · rcases Lnk.next_mem h2 a ha with ⟨c, hc, h3⟩ | ⟨h3, h4⟩
      · exact Or.inl ⟨c, by simp [hc], h3⟩
      · right; refine ⟨h3, ?_⟩
        cases bs with
        | nil => cases ha
        | cons c cs => rw [List.getLast?_cons_cons]; exact h4

/-- extending a list by itself closes its chain of nodes into a cycle; the length doubles -/
theorem extend_self (hk : k ≠ .cll) {h : Heap V X} {l : Addr} {ns : List Addr} {xs : List V}
    (fuel : Nat) (r : Rep k h l ns xs) (hne : xs ≠ []) :
    ∃ h', extend k fuel l l h = (.ok (), h') ∧ (h'.lobj l).length = 2 * xs.length ∧
      (h'.lobj l).head = ns.head? ∧
      ∀ a ∈ ns, (h'.node a).data = (h.node a).data ∧ ∃ b ∈ ns, (h'.node a).next = some b := by
  have hn : ns ≠ [] := by
    rintro rfl; have := r.length_eq; exact hne (List.eq_nil_of_length_eq_zero this.symm)
  obtain ⟨as, p, rfl⟩ : ∃ as q, ns = as ++ [q] := ⟨_, _, (List.dropLast_concat_getLast hn).symm⟩
  have hl0 : (h.lobj l).length ≠ 0 := by rw [r.len]; simp
  have hlen : (h.lobj l).length = xs.length := r.lenobj
  obtain ⟨m, hm, hmem⟩ : ∃ m, (h.lobj l).head = some m ∧ m ∈ as ++ [p] := by
    rw [r.head hn]
    cases as with
    | nil => exact ⟨p, by simp, by simp⟩
    | cons a as => exact ⟨a, by simp, by simp⟩
  have hlinks : ∀ a ∈ as ++ [p], a ≠ p → ∃ b ∈ as ++ [p], (h.node a).next = some b := by
    intro a ha hap
    rcases r.links.next_mem a ha with h1 | ⟨_, h1⟩
    · exact h1
    · simp at h1; exact absurd h1.symm hap
  have hlinks' : ∀ a ∈ as ++ [p], a ≠ p → ∃ b, (b ∈ as ∨ b = p) ∧ (h.node a).next = some b := by
    simpa using hlinks
  cases k with
  | cll => exact absurd rfl hk
  | ll =>
    obtain ⟨c, e, _⟩ := getNode_spec (as := as ++ [p]) (bs := []) (by simpa using r)
    have hlast : (as ++ [p]).getLast? = some p := by simp
    rw [← r.len, hlast] at e
    refine ⟨_, by simp [extend, run_bind, hl0, e, setNext]; rfl, ?_, ?_, ?_⟩
    · simp [hlen]; omega
    · simp [← r.head hn]
    · intro a ha
      by_cases hap : a = p
      · subst hap; simpa [hm] using hmem
      · simpa [upd_ne _ _ hap] using hlinks' a ha hap
  | dll =>
    have ht : (h.lobj l).tail = some p := by rw [r.tail rfl hn]; simp
    refine ⟨_, by simp [extend, run_bind, hl0, ht, hm, setNext]; rfl, ?_, ?_, ?_⟩
    · simp [hlen]; omega
    · simp [← r.head hn, hm]
    · intro a ha
      by_cases ham : a = m
      · subst ham
        by_cases hap : a = p
        · subst hap; simpa [hm] using hmem
        · simpa [upd_ne _ _ hap] using hlinks' a ha hap
      · by_cases hap : a = p
        · subst hap; simpa [hm, upd_ne _ _ ham] using hmem
        · simpa [upd_ne _ _ hap, upd_ne _ _ ham] using hlinks' a ha hap

theorem Rep.data_of_mem {h : Heap V X} {l : Addr} {ns : List Addr} {xs : List V}
    (r : Rep k h l ns xs) {a : Addr} (ha : a ∈ ns) : ∃ v ∈ xs, (h.node a).data = some v := by
  have : (h.node a).data ∈ xs.map some := by rw [← r.data]; exact List.mem_map_of_mem ha
  obtain ⟨v, hv, e⟩ := List.mem_map.1 this
  exact ⟨v, hv, e.symm⟩

/-- the insertion loop of `CircularLinkedList.extend` never ends when the list is its own argument -/
theorem extendLoopCLL_self : ∀ (fuel : Nat) {h : Heap V X} {l c : Addr} {ns : List Addr}
    {xs : List V} {counter : Nat}, Rep .cll h l ns xs → c ∈ ns → counter < ns.length →
    ∃ h', extendLoopCLL l l fuel counter (some c) ns.getLast? h = (.error .diverge, h')
  | 0, h, l, c, ns, xs, counter, r, hc, hn => ⟨h, rfl⟩
  | fuel + 1, h, l, c, ns, xs, counter, r, hc, hn => by
    obtain ⟨z, hz, hd⟩ := r.data_of_mem hc
    have hlt : counter < (h.lobj l).length := by rw [r.len]; exact hn
    obtain ⟨ha, ea, na, oa, La, ba, ca⟩ := newNode_run (default : X) z h
    have hnn : h.nNodes ∉ ns ++ [] := fun e => by
      simp at e; exact Nat.lt_irrefl _ (r.bound _ e)
    have fa : Frame h ha (fun _ => False) (fun _ => False) :=
      ⟨fun a hx _ => oa a (Nat.ne_of_lt hx), fun _ _ _ => by rw [La], by omega, by omega⟩
    obtain ⟨h1, m, ns1, e1, r1, p1, g1, f1, b1, c1, h7, _⟩ :=
      insertNodeCLL_spec (as := ns) (bs := []) (ys := xs) (zs := []) (n := h.nNodes)
        (v := PyData.norm z) (prev := ns.getLast?)
        (by simpa using r.frame fa (by simp) (by simp)) r.length_eq hnn (by omega) (by rw [na])
        (PyData.norm_norm z) (by simp)
    have hne : ns ≠ [] := fun e => by subst e; cases hc
    have hm : m = h.nNodes := h7 (Or.inr hne)
    subst hm
    have hl1 : ns1.length = ns.length + 1 := by rw [p1.length_eq]; simp
    have hlast : ns1.getLast? = some h.nNodes := by
      rw [List.getLast?_eq_getElem?, hl1]; simpa using g1
    have hc1 : c ∈ ns1 := p1.mem_iff.2 (by simp [hc])
    obtain ⟨b, hb, hnx⟩ : ∃ b ∈ ns1, (h1.node c).next = some b := by
      rcases r1.links.next_mem c hc1 with h8 | ⟨h8, _⟩
      · exact h8
      · cases hns : ns1 with
        | nil => rw [hns] at hc1; cases hc1
        | cons q qs => rw [hns] at h8; exact ⟨q, by simp, h8⟩
    obtain ⟨h2, e2⟩ := extendLoopCLL_self fuel r1 hb (counter := counter + 1) (by omega)
    refine ⟨h2, ?_⟩
    simp only [extendLoopCLL, run_bind, run_getList, hlt, if_true, run_getData, hd, run_pure, ea, e1,
      run_getNext, hnx]
    rw [← hlast]; exact e2

theorem extendCLL_self {h : Heap V X} {l : Addr} {ns : List Addr} {xs : List V} (fuel : Nat)
    (r : Rep .cll h l ns xs) (hne : xs ≠ []) :
    ∃ h', extend .cll fuel l l h = (.error .diverge, h') := by
  have hn : ns ≠ [] := by
    rintro rfl; have := r.length_eq; exact hne (List.eq_nil_of_length_eq_zero this.symm)
  obtain ⟨as, q, rfl⟩ : ∃ as q, ns = as ++ [q] := ⟨_, _, (List.dropLast_concat_getLast hn).symm⟩
  have hl : (h.lobj l).length = as.length + 1 := by rw [r.len]; simp
  have hh := r.head hn
  have e1 := getNodeLoop_spec (p := none) (c := (h.lobj l).head) r.links
    (by intro hne; rw [hh]; cases as <;> simp_all)
  obtain ⟨m, hm, hmem⟩ : ∃ m, (h.lobj l).head = some m ∧ m ∈ as ++ [q] := by
    rw [hh]
    cases as with
    | nil => exact ⟨q, by simp, by simp⟩
    | cons a as => exact ⟨a, by simp, by simp⟩
  obtain ⟨h', e⟩ := extendLoopCLL_self fuel r hmem (counter := 0) (by simp)
  have hc : (if as = [] then (h.lobj l).head else (some q)) = (as ++ [q]).getLast? := by
    by_cases ha : as = []
    · subst ha; simp [hh]
    · simp [ha]
  refine ⟨h', ?_⟩
  have hl0 : (h.lobj l).length ≠ 0 := by omega
  rw [hm] at e1
  simp only [extend, run_bind, run_getList, hl0, if_false, hm]
  rw [hl]
  simp only [Nat.add_sub_cancel, e1]
  rw [hm] at hc
  simp only [List.head?_cons, Option.some_or]
  rw [hc]; exact e

/-! ## the ordering operators -/

/-- `zip` with the arguments exchanged -/
theorem zip_swap_find (f : V × V → Bool) : ∀ xs ys : List V,
    (ys.zip xs).find? (fun p => f (p.2, p.1)) = ((xs.zip ys).find? f).map (fun p => (p.2, p.1))
  | [], ys => by cases ys <;> rfl
  | x :: xs, [] => rfl
  | x :: xs, y :: ys => by
    simp only [List.zip_cons_cons, List.find?_cons]
    cases f (x, y)
    · exact zip_swap_find f xs ys
    · rfl

theorem mem_zip_swap {a b : V} : ∀ {xs ys : List V}, (a, b) ∈ xs.zip ys → (b, a) ∈ ys.zip xs
  | [], ys, h => by simp at h
  | x :: xs, [], h => by simp at h
  | x :: xs, y :: ys, h => by
    simp only [List.zip_cons_cons, List.mem_cons, Prod.mk.injEq] at h ⊢
    rcases h with ⟨rfl, rfl⟩ | h
    · exact Or.inl ⟨rfl, rfl⟩
    · exact Or.inr (mem_zip_swap h)

theorem zip_swap_all (xs ys : List V) :
    (∀ p ∈ ys.zip xs, p.1 = p.2) ↔ (∀ p ∈ xs.zip ys, p.1 = p.2) :=
  ⟨fun h p hp => (h _ (mem_zip_swap hp)).symm, fun h p hp => (h _ (mem_zip_swap hp)).symm⟩

/-- an operator and its mirror image give mirrored results -/
theorem specOrd_swap {op op' : V → V → Except Err Bool} (h : ∀ a b, op' b a = op a b)
    (xs ys : List V) (p q : Prop) [Decidable p] [Decidable q] :
    specOrd op' ys xs p q = specOrd op xs ys p q := by
  have hf := zip_swap_find (fun p => decide (p.1 ≠ p.2 ∧ op p.1 p.2 ≠ .ok true)) xs ys
  have hg : (fun p : V × V => decide (p.1 ≠ p.2 ∧ op' p.1 p.2 ≠ .ok true)) =
      (fun p => decide (p.2 ≠ p.1 ∧ op p.2 p.1 ≠ .ok true)) := by
    funext p; simp only [h, ne_comm]
  simp only [specOrd, hg, hf]
  cases (xs.zip ys).find? (fun p => decide (p.1 ≠ p.2 ∧ op p.1 p.2 ≠ .ok true)) with
  | none =>
    simp only [Option.map_none]
    congr 1
    simp only [zip_swap_all xs ys]
  | some p => simp only [Option.map_some, h]

/-! ## reading through a handle that was taken over by `extend` -/

theorem extend_keeps_other (hk : k ≠ .cll) {h : Heap V X} {l o : Addr} {ns ms : List Addr}
    {xs ys : List V} (fuel : Nat) (r : Rep k h l ns xs) (ro : Rep k h o ms ys)
    (hd : ∀ a ∈ ns, a ∉ ms) (hlo : l ≠ o) :
    ∃ h', extend k fuel l o h = (.ok (), h') ∧ toList o h' = (.ok (ys.map some), h') ∧
      llLen o h' = (.ok ys.length, h') := by
  obtain ⟨h', e, r', f, n1, n2, ho, hs, hnx⟩ := extend_spec hk fuel r ro hd hlo
  refine ⟨h', e, ?_, ?_⟩
  · simp only [toList, run_bind, run_getList, ho, ro.len]
    refine iterLoop_spec (e := endOf k ms) ms ⟨?_, ?_, ro.normed, ?_⟩ ro.head
    · exact Lnk.congr (h := h) (fun a ha => hnx a ha) ro.links
    · rw [← ro.data]
      exact List.map_congr_left (fun a _ => (hs a).1)
    · intro a ha; rw [n1]; exact ro.bound a ha
  · simp [llLen, run_bind, ho, ro.len, ro.length_eq]

end Extra
