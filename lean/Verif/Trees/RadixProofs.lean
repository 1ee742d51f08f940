import Verif.Trees.TrieRefine

/-!
# `RadixTrie._insert`
-/

set_option linter.unusedSimpArgs false

namespace Extra

/-- `a` and `b` do not start with the same character -/
def Apart (a b : Word) : Prop := ∀ c, ¬ (a.head? = some c ∧ b.head? = some c)

theorem lcpLen_spec : ∀ (a b : Word), ∃ x a' b', a = x ++ a' ∧ b = x ++ b' ∧ x.length = lcpLen a b ∧
    Apart a' b'
  | [], b => ⟨[], [], b, rfl, rfl, by simp [lcpLen], by simp [Apart]⟩
  | a :: as, [] => ⟨[], a :: as, [], rfl, rfl, by simp [lcpLen], by simp [Apart]⟩
  | a :: as, b :: bs => by
    by_cases e : a = b
    · obtain ⟨x, a', b', h1, h2, h3, h4⟩ := lcpLen_spec as bs
      subst e
      exact ⟨a :: x, a', b', by rw [h1]; rfl, by rw [h2]; rfl, by simp [lcpLen, h3], h4⟩
    · refine ⟨[], a :: as, b :: bs, rfl, rfl, by simp [lcpLen, e], ?_⟩
      rintro c ⟨h1, h2⟩
      simp at h1 h2
      exact e (h1.trans h2.symm)

theorem getLcp_spec (a b : Word) : ∃ x a' b', a = x ++ a' ∧ b = x ++ b' ∧ getLcp a b = x ∧
    Apart a' b' := by
  obtain ⟨x, a', b', h1, h2, h3, h4⟩ := lcpLen_spec a b
  refine ⟨x, a', b', h1, h2, ?_, h4⟩
  rw [getLcp, ← h3]
  by_cases hl : x.length < min a.length b.length
  · rw [if_pos hl, h1, List.take_left]
  · rw [if_neg hl]
    have e1 := congrArg List.length h1
    have e2 := congrArg List.length h2
    rw [List.length_append] at e1 e2
    by_cases hl2 : a.length < b.length
    · rw [if_pos hl2, h1]
      have : a' = [] := List.eq_nil_of_length_eq_zero (by omega)
      rw [this, List.append_nil]
    · rw [if_neg hl2, h2]
      have : b' = [] := List.eq_nil_of_length_eq_zero (by omega)
      rw [this, List.append_nil]

/-- a child replaced by a new node in the middle of its label -/
theorem setChild_split {v u : TNode} {c c2 : Char} {d1 d2 : Word} (h : v.kids.Ok)
    (hc : v.kids.child c = some u) (hd : u.data = d1 ++ d2) (h1 : d1.head? = some c)
    (h2 : d2.head? = some c2) :
    let mid : TNode := ⟨d1, false, Kids.nil.set c2 { u with data := d2 }⟩
    (v.setChild c mid).kids.Ok ∧ (v.setChild c mid).size = v.size + 1 ∧
      (v.setChild c mid).kids.child c = some mid ∧
      (∀ b, (d1, b) ∉ v.strs) ∧
      ∀ {q : Word} {b : Bool}, (q, b) ∈ (v.setChild c mid).strs ↔
        (q, b) ∈ v.strs ∨ (q = d1 ∧ b = false) := by
  intro mid
  obtain ⟨hu1, hu2⟩ := h.child hc
  have hmk : mid.kids.Ok := ⟨h2, rfl, hu2, trivial⟩
  have hok : (v.setChild c mid).kids.Ok := Kids.Ok.set h1 hmk h
  have hch : (v.setChild c mid).kids.child c = some mid := by
    rw [TNode.setChild, Kids.child_set, if_pos rfl]
  have hmc : mid.kids.child c2 = some { u with data := d2 } := by
    simp [mid, Kids.set, Kids.child]
  have hne1 := data_ne h1
  have hne2 := data_ne h2
  refine ⟨hok, ?_, hch, ?_, ?_⟩
  · have s1 := TNode.size_eq v
    have s2 := TNode.size_eq (v.setChild c mid)
    have s3 := Kids.size_set_old (t := mid) hc
    have s4 : mid.size = 1 + u.size := by
      rw [TNode.size_eq, TNode.size_eq u]
      simp only [mid, Kids.set, Kids.size_cons]
      simp [Kids.size, Kids.strs]
    simp only [TNode.setChild] at s2 ⊢
    omega
  · intro b hb
    obtain ⟨d, e⟩ : ∃ d, d1 = c :: d := by
      cases hh : d1 with
      | nil => exact absurd hh hne1
      | cons a d => rw [hh] at h1; cases h1; exact ⟨d, rfl⟩
    rw [e] at hb
    obtain ⟨u', q, hu', e', _⟩ := (TNode.strs_cons h).1 hb
    rw [hc] at hu'
    cases hu'
    rw [← e, hd] at e'
    have hl := congrArg List.length e'
    have hp := List.length_pos_of_ne_nil hne2
    rw [List.length_append, List.length_append] at hl
    omega
  · intro q b
    cases q with
    | nil =>
      rw [TNode.strs_nil hok, TNode.strs_nil h]
      have : ¬ ([] : Word) = d1 := fun e => hne1 e.symm
      simp [this, TNode.setChild]
    | cons a q =>
      rw [TNode.strs_cons hok, TNode.strs_cons h]
      simp only [TNode.setChild, Kids.child_set]
      by_cases e : c = a
      · subst e
        simp only [if_true, hc, Option.some.injEq]
        constructor
        · rintro ⟨_, q', rfl, e, hm⟩
          cases q' with
          | nil =>
            have := (TNode.strs_nil hmk).1 hm
            exact Or.inr ⟨by rw [e, List.append_nil], this⟩
          | cons a' q' =>
            obtain ⟨u', q'', hu', e', hm'⟩ := (TNode.strs_cons hmk).1 hm
            have ha : a' = c2 := by
              by_contra hne
              simp only [mid, Kids.set, Kids.child] at hu'
              rw [if_neg (fun h => hne h.symm)] at hu'
              cases hu'
            subst ha
            rw [hmc] at hu'
            cases hu'
            refine Or.inl ⟨u, q'', rfl, ?_, hm'⟩
            rw [e, e', hd]
            simp [mid]
        · rintro (⟨_, q', rfl, e, hm⟩ | ⟨e, rfl⟩)
          · refine ⟨mid, d2 ++ q', rfl, by rw [e, hd]; simp [mid], ?_⟩
            have := TNode.strs_child hmk hmc (q := q') (b := b)
            exact this.2 hm
          · exact ⟨mid, [], rfl, by rw [e]; simp [mid], (TNode.strs_nil hmk).2 rfl⟩
      · simp only [if_neg e]
        have : ¬ a :: q = d1 := by
          rintro rfl
          simp at h1
          exact e h1.symm
        simp [this]

/-- `p` can be read from the root -/
def Readable (t : TNode) (p : Word) : Prop := ∃ q b, (q, b) ∈ t.strs ∧ p <+: q

/-- what `_insert` adds: the word, and the longest part `m` of it that could be read before -/
def RadixAdded (t t' : TNode) (w : Word) : Prop :=
  ∃ m : Word, m <+: w ∧ Readable t m ∧ (∀ y, y <+: w → Readable t y → y <+: m) ∧
    ∀ q b, (q, b) ∈ t'.strs ↔ (q = w ∧ b = true) ∨
      (q ≠ w ∧ ((q, b) ∈ t.strs ∨ (b = false ∧ q = m ∧ ∀ b', (m, b') ∉ t.strs)))

theorem radixLoop_nil (n : Nat) (t : Trie) (p : Word) : radixLoop n [] t p = .ok (t, p) := by
  cases n <;> rfl

theorem apart_nil {b : Word} : Apart [] b := by simp [Apart]

theorem radixAdd_spec {t : Trie} (h : t.root.kids.Ok) {w : Word} (hw : w ≠ [])
    (hn : ¬ ∃ r, Lost t.root w r) :
    ∃ t', t.radixAdd w = .ok (t', w) ∧ t'.root.kids.Ok ∧
      t'.count - t'.root.size = t.count - t.root.size ∧ t'.root.data = t.root.data ∧
      RadixAdded t.root t'.root w := by
  obtain ⟨p, v, r, e, rfl, hr, s⟩ := follow_not_lost h hn
  have hv := hr.ok h
  rw [Trie.radixAdd, if_neg hw, e]
  simp only
  -- adding a leaf below a node
  have leaf : ∀ (t1 : Trie) (p1 : Word) (v1 : TNode) (c : Char) (r1 : Word) (n : Nat),
      t1.root.kids.Ok → NodeAt t1.root p1 v1 → v1.kids.child c = none →
      ∃ t2, radixLoop (n + 1) (c :: r1) t1 p1 = .ok (t2, p1 ++ c :: r1) ∧ t2.root.kids.Ok ∧
        t2.count - t2.root.size = t1.count - t1.root.size ∧ t2.root.data = t1.root.data ∧
        (∃ v2, NodeAt t2.root (p1 ++ c :: r1) v2) ∧
        ∀ {q b}, (q, b) ∈ t2.root.strs ↔ (q, b) ∈ t1.root.strs ∨ (q = p1 ++ c :: r1 ∧ b = false) := by
    intro t1 p1 v1 c r1 n h1 hr1 hc1
    have hv1 := hr1.ok h1
    have hn1 : (⟨c :: r1, false, .nil⟩ : TNode).kids.Ok := trivial
    obtain ⟨s1, s2, s3⟩ := setChild_new (u := ⟨c :: r1, false, .nil⟩) hv1 rfl hn1 hc1
    obtain ⟨m1, m2, m3, m4, m5⟩ :=
      hr1.modify (f := fun m => m.setChild c ⟨c :: r1, false, .nil⟩) h1 rfl s1
    have hs1 : (⟨c :: r1, false, .nil⟩ : TNode).size = 1 := rfl
    have hch : (v1.setChild c ⟨c :: r1, false, .nil⟩).kids.child c = some ⟨c :: r1, false, .nil⟩ := by
      rw [TNode.setChild, Kids.child_set, if_pos rfl]
    refine ⟨{ t1.modify (fun m => m.setChild c ⟨c :: r1, false, .nil⟩) p1 with
        count := (t1.modify (fun m => m.setChild c ⟨c :: r1, false, .nil⟩) p1).count + 1 }, ?_, m2, ?_,
      m3, ⟨_, m1.trans (.child hch)⟩, ?_⟩
    · rw [radixLoop, hr1.at h1]
      have : getLcp (v1.childData c) (c :: r1) = [] := by
        simp [TNode.childData, hc1, getLcp, lcpLen]
      simp only [this, List.length_nil, if_true]
      cases n <;> rfl
    · simp only [Trie.modify]
      rw [hs1] at s2
      omega
    · intro q b
      simp only [Trie.modify]
      by_cases hq : p1 <+: q
      · obtain ⟨q', rfl⟩ := hq
        rw [m1.strs m2, s3, hr1.strs h1]
        simp only [TNode.strs, Kids.strs, List.mem_singleton, Prod.mk.injEq,
          List.append_cancel_left_eq]
        constructor
        · rintro (h2 | ⟨q'', rfl, rfl, rfl⟩)
          · exact Or.inl h2
          · simp
        · rintro (h2 | ⟨rfl, rfl⟩)
          · exact Or.inl h2
          · exact Or.inr ⟨[], by simp⟩
      · rw [m5 hq]
        have : q ≠ p1 ++ c :: r1 := by rintro rfl; exact hq ⟨_, rfl⟩
        simp [this]
  -- marking the result
  have finish : ∀ (t2 : Trie) (v2 : TNode) (m : Word), t2.root.kids.Ok →
      NodeAt t2.root (p ++ r) v2 → t2.count - t2.root.size = t.count - t.root.size →
      t2.root.data = t.root.data →
      (∀ q b, q ≠ p ++ r → ((q, b) ∈ t2.root.strs ↔
        (q, b) ∈ t.root.strs ∨ (b = false ∧ q = m ∧ ∀ b', (m, b') ∉ t.root.strs))) →
      m <+: p ++ r → Readable t.root m → (∀ y, y <+: p ++ r → Readable t.root y → y <+: m) →
      (t2.mark true (p ++ r)).root.kids.Ok ∧
      (t2.mark true (p ++ r)).count - (t2.mark true (p ++ r)).root.size = t.count - t.root.size ∧
      (t2.mark true (p ++ r)).root.data = t.root.data ∧
      RadixAdded t.root (t2.mark true (p ++ r)).root (p ++ r) := by
    intro t2 v2 m h2 hr2 hcount hdata hstr hm1 hm2 hm3
    obtain ⟨k1, _, k3, k4, k5, k6⟩ := mark_spec true h2 hr2
    refine ⟨k1, by rw [k3, k4]; exact hcount, by rw [k5, hdata], m, hm1, hm2, hm3, ?_⟩
    intro q b
    rw [k6]
    by_cases hq : q = p ++ r
    · simp [hq]
    · simp only [hq, false_and, ne_eq, not_false_eq_true, true_and, false_or]
      exact hstr q b hq
  have hpn : (p, v.word) ∈ t.root.strs := (mem_strs h).2 ⟨v, hr, rfl⟩
  have hpr : Readable t.root p := ⟨p, _, hpn, List.prefix_refl _⟩
  -- a readable string beyond `p` is read below `v`
  have beyond : ∀ {y : Word}, Readable t.root (p ++ y) → ∃ q b, (q, b) ∈ v.strs ∧ y <+: q := by
    rintro y ⟨q, b, hq, z, rfl⟩
    rw [List.append_assoc, hr.strs h] at hq
    exact ⟨_, b, hq, z, rfl⟩
  cases r with
  | nil =>
    obtain ⟨f1, f2, f3, f4⟩ := finish t v p h (by simpa using hr) rfl rfl
      (by
        intro q b hq
        rw [List.append_nil] at hq
        simp [hq])
      (by simp) hpr (fun y hy _ => by rwa [List.append_nil] at hy)
    rw [List.append_nil] at f1 f2 f3 f4 ⊢
    exact ⟨_, rfl, f1, f2, f3, f4⟩
  | cons c r =>
    rcases s with s | ⟨c', r', e', s⟩
    · cases s
    · cases e'
      rcases s with ⟨s, _⟩ | ⟨u, hu, s⟩
      · obtain ⟨t2, e2, l1, l2, l3, ⟨v2, l4⟩, l5⟩ := leaf t p v c r (c :: r).length h hr s
        obtain ⟨f1, f2, f3, f4⟩ := finish t2 v2 p l1 l4 l2 l3
          (by
            intro q b hq
            rw [l5]
            simp only [hq, false_and, or_false]
            refine ⟨Or.inl, ?_⟩
            rintro (h1 | ⟨_, _, h1⟩)
            · exact h1
            · exact absurd hpn (h1 _))
          ⟨_, rfl⟩ hpr
          (by
            intro y hy hyr
            rcases List.prefix_or_prefix_of_prefix hy ⟨_, rfl⟩ with hh | ⟨z, rfl⟩
            · exact hh
            · cases z with
              | nil => simp
              | cons a z =>
                rw [List.prefix_append_right_inj] at hy
                obtain ⟨z2, hz2⟩ := hy
                cases hz2
                obtain ⟨q, b, hq, z3, rfl⟩ := beyond hyr
                obtain ⟨u, _, hu, _⟩ := (TNode.strs_cons hv).1 hq
                rw [s] at hu; cases hu)
        exact ⟨_, by rw [e2], f1, f2, f3, f4⟩
      · obtain ⟨x, d2, r2, g1, g2, g3, g4⟩ := getLcp_spec u.data (c :: r)
        obtain ⟨hu1, hu2⟩ := hv.child hu
        have hd2 : d2 ≠ [] := by
          rintro rfl
          rw [List.append_nil] at g1
          exact s ⟨r2, by rw [g1, ← g2]⟩
        have hx : x ≠ [] := by
          rintro rfl
          simp only [List.nil_append] at g1 g2
          exact g4 c ⟨by rw [← g1]; exact hu1, by rw [← g2]; rfl⟩
        have hxc : x.head? = some c := by
          cases hh : x with
          | nil => exact absurd hh hx
          | cons a x' => rw [hh] at g2; cases g2; rfl
        obtain ⟨c2, d2', hd2'⟩ : ∃ c2 d2', d2 = c2 :: d2' := by
          cases hh : d2 with
          | nil => exact absurd hh hd2
          | cons a d => exact ⟨a, d, rfl⟩
        have hd2c : d2.head? = some c2 := by rw [hd2']; rfl
        obtain ⟨k1, k2, k3, k4, k5⟩ := setChild_split hv hu g1 hxc hd2c
        obtain ⟨m1, m2, m3, m4, m5⟩ := hr.modify
          (f := fun m => m.setChild c ⟨x, false, Kids.nil.set c2 { u with data := d2 }⟩) h rfl k1
        have hrm := m1.trans (.child k3)
        -- the trie after the split
        have hstep : ∀ n, radixLoop (n + 1) (c :: r) t p = radixLoop n r2
            { t.modify (fun m => m.setChild c ⟨x, false, Kids.nil.set c2 { u with data := d2 }⟩) p with
              count := (t.modify (fun m =>
                m.setChild c ⟨x, false, Kids.nil.set c2 { u with data := d2 }⟩) p).count + 1 }
            (p ++ x) := by
          intro n
          rw [radixLoop, hr.at h]
          have hcd : v.childData c = u.data := by simp [TNode.childData, hu]
          simp only [hcd, g3]
          have hpos := List.length_pos_of_ne_nil hx
          have hpos2 := List.length_pos_of_ne_nil hd2
          have l1 : x.length ≤ (c :: r).length := by rw [g2]; simp
          have l2 : x.length ≠ u.data.length := by rw [g1]; simp; exact hd2
          rw [if_neg (by omega), if_pos ⟨l1, l2⟩, hu]
          have e1 : u.data[x.length]? = some c2 := by
            rw [g1, hd2', List.getElem?_append_right (le_refl _)]; simp
          have e2 : u.data.take x.length = x := by rw [g1, List.take_left]
          have e3 : u.data.drop x.length = d2 := by rw [g1, List.drop_left]
          have e4 : (c :: r).drop x.length = r2 := by rw [g2, List.drop_left]
          rw [e1, e2, e3, e4]
          obtain ⟨dd, hdd⟩ : ∃ dd, u.data = c :: dd := by
            cases hh : u.data with
            | nil => rw [hh] at hu1; cases hu1
            | cons a d => rw [hh] at hu1; cases hu1; exact ⟨d, rfl⟩
          rw [hdd]
        have hsz : (t.root.modify
            (fun m => m.setChild c ⟨x, false, Kids.nil.set c2 { u with data := d2 }⟩) p).size =
            t.root.size + 1 := by omega
        have hstr1 : ∀ {q b}, (q, b) ∈ (t.root.modify
            (fun m => m.setChild c ⟨x, false, Kids.nil.set c2 { u with data := d2 }⟩) p).strs ↔
              (q, b) ∈ t.root.strs ∨ (q = p ++ x ∧ b = false) := by
          intro q b
          by_cases hq : p <+: q
          · obtain ⟨q', rfl⟩ := hq
            rw [m1.strs m2, k5, hr.strs h, List.append_cancel_left_eq]
          · rw [m5 hq]
            have : q ≠ p ++ x := by rintro rfl; exact hq ⟨_, rfl⟩
            simp [this]
        have hnew : ∀ b, (p ++ x, b) ∉ t.root.strs := by
          intro b; rw [hr.strs h]; exact k4 b
        have hlong : ∀ y, y <+: p ++ c :: r → Readable t.root y → y <+: p ++ x := by
          intro y hy hyr
          rw [g2, ← List.append_assoc] at hy
          rcases List.prefix_or_prefix_of_prefix hy ⟨_, rfl⟩ with hh | ⟨z, rfl⟩
          · exact hh
          · cases z with
            | nil => simp
            | cons a z =>
              exfalso
              rw [List.prefix_append_right_inj] at hy
              obtain ⟨z2, hz2⟩ := hy
              rw [List.append_assoc] at hyr
              obtain ⟨q, b, hq, z3, hz3⟩ := beyond hyr
              obtain ⟨x', hx'⟩ : ∃ x', x = c :: x' := by
                cases hh : x with
                | nil => exact absurd hh hx
                | cons a x' => rw [hh] at hxc; cases hxc; exact ⟨x', rfl⟩
              have hq' : (c :: (x' ++ a :: z ++ z3), b) ∈ v.strs := by
                rw [← hz3, hx'] at hq
                simpa using hq
              obtain ⟨u', q', hu', e', _⟩ := (TNode.strs_cons hv).1 hq'
              rw [hu] at hu'
              cases hu'
              rw [g1, hx', hd2'] at e'
              simp only [List.cons_append, List.append_assoc, List.cons.injEq, true_and,
                List.append_cancel_left_eq] at e'
              rw [← hz2, e'.1] at g4
              exact g4 c2 ⟨hd2c, rfl⟩
        have hread : Readable t.root (p ++ x) := by
          refine ⟨p ++ u.data, u.word, (mem_strs h).2 ⟨u, hr.trans (.child hu), rfl⟩, ?_⟩
          rw [List.prefix_append_right_inj]
          exact ⟨d2, g1.symm⟩
        rw [hstep]
        cases r2 with
        | nil =>
          rw [List.append_nil] at g2
          rw [radixLoop_nil]
          simp only
          rw [← g2] at hstr1 hrm ⊢
          obtain ⟨f1, f2, f3, f4⟩ := finish
            { t.modify (fun m => m.setChild c ⟨c :: r, false, Kids.nil.set c2 { u with data := d2 }⟩) p with
              count := (t.modify (fun m =>
                m.setChild c ⟨c :: r, false, Kids.nil.set c2 { u with data := d2 }⟩) p).count + 1 }
            _ (p ++ c :: r) (by rw [← g2] at m2; exact m2) hrm (by
              simp only [Trie.modify]; rw [← g2] at hsz; rw [hsz]; push_cast; omega)
            (by rw [← g2] at m3; exact m3)
            (by intro q b hq; simp only [Trie.modify]; rw [hstr1]; simp [hq]) (List.prefix_refl _)
            (by rw [← g2] at hread; exact hread) (fun _ hy _ => hy)
          exact ⟨_, rfl, f1, f2, f3, f4⟩
        | cons c3 r3 =>
          have hne : c3 ≠ c2 := by
            rintro rfl
            exact g4 c3 ⟨hd2c, rfl⟩
          have hno : (Kids.nil.set c2 { u with data := d2 }).child c3 = none := by
            simp only [Kids.set, Kids.child]
            rw [if_neg (fun h => hne h.symm)]
          obtain ⟨t2, e2, l1, l2, l3, ⟨v2, l4⟩, l5⟩ := leaf
            { t.modify (fun m => m.setChild c ⟨x, false, Kids.nil.set c2 { u with data := d2 }⟩) p with
              count := (t.modify (fun m =>
                m.setChild c ⟨x, false, Kids.nil.set c2 { u with data := d2 }⟩) p).count + 1 }
            (p ++ x) _ c3 r3 r.length m2 hrm hno
          have ew : p ++ x ++ c3 :: r3 = p ++ c :: r := by rw [g2, List.append_assoc]
          rw [ew] at e2 l4 l5
          obtain ⟨f1, f2, f3, f4⟩ := finish t2 v2 (p ++ x) l1 l4
            (by
              rw [l2]
              simp only [Trie.modify]; rw [hsz]; push_cast; omega)
            (by rw [l3]; exact m3)
            (by
              intro q b hq
              rw [l5]
              simp only [Trie.modify]
              rw [hstr1]
              simp only [hq, false_and, or_false]
              constructor
              · rintro (h1 | ⟨h0, h1⟩)
                · exact Or.inl h1
                · exact Or.inr ⟨h1, h0, hnew⟩
              · rintro (h1 | ⟨h1, h0, _⟩)
                · exact Or.inl h1
                · exact Or.inr ⟨h0, h1⟩)
            ⟨c3 :: r3, ew⟩ hread hlong
          rw [List.length_cons, e2]
          exact ⟨_, rfl, f1, f2, f3, f4⟩

end Extra
