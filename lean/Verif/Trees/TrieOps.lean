import Verif.Trees.TrieFollow

/-!
# Insertion into a `Trie`, and removal from any trie
-/

set_option linter.unusedSimpArgs false

namespace Extra

theorem setChild_new {v u : TNode} {c : Char} (h : v.kids.Ok) (hu : u.data.head? = some c)
    (hk : u.kids.Ok) (hc : v.kids.child c = none) :
    (v.setChild c u).kids.Ok ∧ (v.setChild c u).size = v.size + u.size ∧
      ∀ {q : Word} {b : Bool}, (q, b) ∈ (v.setChild c u).strs ↔
        (q, b) ∈ v.strs ∨ ∃ q', q = u.data ++ q' ∧ (q', b) ∈ u.strs := by
  have hok : (v.setChild c u).kids.Ok := Kids.Ok.set hu hk h
  refine ⟨hok, ?_, ?_⟩
  · rw [TNode.size_eq, TNode.size_eq v, TNode.setChild, Kids.size_set_new hc]; omega
  · intro q b
    cases q with
    | nil =>
      rw [TNode.strs_nil h, TNode.strs_nil hok]
      constructor
      · exact Or.inl
      · rintro (h1 | ⟨q', e, _⟩)
        · exact h1
        · have := data_ne hu
          simp_all
    | cons a q =>
      rw [TNode.strs_cons hok, TNode.strs_cons h]
      simp only [TNode.setChild, Kids.child_set]
      by_cases e : c = a
      · subst e
        simp only [if_true, Option.some.injEq, hc]
        constructor
        · rintro ⟨_, q', rfl, e, hm⟩
          exact Or.inr ⟨q', e, hm⟩
        · rintro (⟨_, _, e, _⟩ | ⟨q', e, hm⟩)
          · cases e
          · exact ⟨u, q', rfl, e, hm⟩
      · simp only [if_neg e]
        constructor
        · exact Or.inl
        · rintro (h1 | ⟨q', e', _⟩)
          · exact h1
          · have := head_append (q := q') hu
            rw [← e'] at this
            simp at this
            exact absurd this.symm e

theorem delChild {v u : TNode} {c : Char} (h : v.kids.Ok) (hc : v.kids.child c = some u) :
    ({ v with kids := v.kids.del c } : TNode).kids.Ok ∧
      ({ v with kids := v.kids.del c } : TNode).size + u.size = v.size ∧
      ∀ {q : Word} {b : Bool}, (q, b) ∈ ({ v with kids := v.kids.del c } : TNode).strs ↔
        (q, b) ∈ v.strs ∧ ¬ u.data <+: q := by
  have hok : ({ v with kids := v.kids.del c } : TNode).kids.Ok := Kids.Ok.del c h
  obtain ⟨hd, _⟩ := h.child hc
  refine ⟨hok, ?_, ?_⟩
  · rw [TNode.size_eq, TNode.size_eq v]
    have := Kids.size_del hc
    simp only
    omega
  · intro q b
    cases q with
    | nil =>
      rw [TNode.strs_nil h, TNode.strs_nil hok]
      have : ¬ u.data <+: [] := by
        intro hh; exact data_ne hd (List.prefix_nil.1 hh)
      simp [this]
    | cons a q =>
      rw [TNode.strs_cons hok, TNode.strs_cons h]
      simp only [Kids.child_del c a h]
      by_cases e : c = a
      · subst e
        simp only [if_true, reduceCtorEq, false_and, exists_false, false_iff, not_and, not_not, hc]
        rintro ⟨_, q', e1, e, _⟩
        cases e1
        exact ⟨q', e.symm⟩
      · simp only [if_neg e]
        have : ¬ u.data <+: a :: q := by
          rintro ⟨q', e'⟩
          have := head_append (q := q') hd
          rw [e'] at this
          simp at this
          exact e this.symm
        simp [this]

/-- writing the word flag of a node -/
theorem mark_spec {t : Trie} {p : Word} {v : TNode} (b : Bool) (h : t.root.kids.Ok)
    (r : NodeAt t.root p v) :
    (t.mark b p).root.kids.Ok ∧ NodeAt (t.mark b p).root p { v with word := b } ∧
      (t.mark b p).root.size = t.root.size ∧ (t.mark b p).count = t.count ∧
      (t.mark b p).root.data = t.root.data ∧
      ∀ {q : Word} {b' : Bool}, (q, b') ∈ (t.mark b p).root.strs ↔
        (q = p ∧ b' = b) ∨ (q ≠ p ∧ (q, b') ∈ t.root.strs) := by
  have hv := r.ok h
  obtain ⟨h1, h2, h3, h4, h5⟩ := r.modify (f := fun n => { n with word := b }) h rfl hv
  have hs : ({ v with word := b } : TNode).size = v.size := by
    rw [TNode.size_eq, TNode.size_eq v]
  simp only [Trie.mark, Trie.modify]
  refine ⟨h2, h1, by rw [hs] at h4; omega, trivial, h3, ?_⟩
  intro q b'
  by_cases hq : p <+: q
  · obtain ⟨q', rfl⟩ := hq
    rw [h1.strs h2, r.strs h]
    cases q' with
    | nil => rw [TNode.strs_nil (t := { v with word := b }) hv]; simp
    | cons a q' =>
      have e1 : (a :: q', b') ∈ ({ v with word := b } : TNode).strs ↔ (a :: q', b') ∈ v.strs := by
        simp [TNode.strs]
      rw [e1]
      simp
  · rw [h5 hq]
    have : q ≠ p := by rintro rfl; exact hq (List.prefix_refl _)
    simp [this]

/-! ## The loop of `insert` -/

theorem addLoop_spec : ∀ (r : Word) (t : Trie) (p : Word) (v : TNode), t.root.kids.Ok →
    NodeAt t.root p v → (∀ c r', r = c :: r' → v.kids.child c = none) →
    (addLoop r t p).2 = p ++ r ∧ (addLoop r t p).1.root.kids.Ok ∧
      (∃ v', NodeAt (addLoop r t p).1.root (p ++ r) v') ∧
      ((addLoop r t p).1.root.size : Int) - t.root.size = (addLoop r t p).1.count - t.count ∧
      (addLoop r t p).1.root.data = t.root.data ∧
      ∀ {q : Word} {b : Bool}, (q, b) ∈ (addLoop r t p).1.root.strs ↔
        (q, b) ∈ t.root.strs ∨ (b = false ∧ ∃ r1, r1 ≠ [] ∧ r1 <+: r ∧ q = p ++ r1)
  | [], t, p, v, h, hr, _ => by
    refine ⟨by simp [addLoop], h, ⟨v, by simpa [addLoop] using hr⟩, by simp [addLoop], rfl, ?_⟩
    intro q b
    simp only [addLoop, List.prefix_nil]
    constructor
    · exact Or.inl
    · rintro (h1 | ⟨_, r1, h1, h2, _⟩)
      · exact h1
      · exact absurd h2 h1
  | c :: r, t, p, v, h, hr, hc => by
    have hv := hr.ok h
    have hc := hc c r rfl
    have hn : (⟨[c], false, .nil⟩ : TNode).kids.Ok := trivial
    obtain ⟨s1, s2, s3⟩ := setChild_new (u := ⟨[c], false, .nil⟩) hv rfl hn hc
    obtain ⟨m1, m2, m3, m4, m5⟩ := hr.modify (f := fun n => n.setChild c ⟨[c], false, .nil⟩) h rfl s1
    rw [addLoop]
    have hch : (v.setChild c ⟨[c], false, .nil⟩).kids.child c = some ⟨[c], false, .nil⟩ := by
      rw [TNode.setChild, Kids.child_set, if_pos rfl]
    have hr' : NodeAt (t.root.modify (fun n => n.setChild c ⟨[c], false, .nil⟩) p) (p ++ [c])
        ⟨[c], false, .nil⟩ := m1.trans (.child hch)
    obtain ⟨i1, i2, i3, i4, i5, i6⟩ := addLoop_spec r
      { t.modify (fun n => n.setChild c ⟨[c], false, .nil⟩) p with
        count := (t.modify (fun n => n.setChild c ⟨[c], false, .nil⟩) p).count + 1 }
      (p ++ [c]) ⟨[c], false, .nil⟩ m2 hr' (fun _ _ _ => rfl)
    have e : p ++ [c] ++ r = p ++ c :: r := by simp
    rw [e] at i1 i3
    refine ⟨i1, i2, i3, ?_, by rw [i5]; exact m3, ?_⟩
    · simp only [Trie.modify] at i4 ⊢
      have hs1 : (⟨[c], false, .nil⟩ : TNode).size = 1 := rfl
      rw [hs1] at s2
      omega
    · intro q b
      rw [i6]
      simp only [Trie.modify]
      have step : (q, b) ∈ (t.root.modify (fun n => n.setChild c ⟨[c], false, .nil⟩) p).strs ↔
          (q, b) ∈ t.root.strs ∨ (b = false ∧ q = p ++ [c]) := by
        by_cases hq : p <+: q
        · obtain ⟨q', rfl⟩ := hq
          rw [m1.strs m2, s3, hr.strs h]
          have : (∃ q'', q' = [c] ++ q'' ∧ (q'', b) ∈ (⟨[c], false, .nil⟩ : TNode).strs) ↔
              (b = false ∧ p ++ q' = p ++ [c]) := by
            simp only [TNode.strs, Kids.strs, List.mem_singleton, Prod.mk.injEq,
              List.append_cancel_left_eq]
            constructor
            · rintro ⟨q'', rfl, rfl, rfl⟩; simp
            · rintro ⟨rfl, rfl⟩; exact ⟨[], by simp⟩
          rw [this]
        · rw [m5 hq]
          have : q ≠ p ++ [c] := by rintro rfl; exact hq ⟨[c], rfl⟩
          simp [this]
      rw [step]
      constructor
      · rintro ((h1 | ⟨hb, rfl⟩) | ⟨hb, r1, hne, hp, rfl⟩)
        · exact Or.inl h1
        · exact Or.inr ⟨hb, [c], by simp, by simp, rfl⟩
        · refine Or.inr ⟨hb, c :: r1, by simp, ?_, by simp⟩
          obtain ⟨r2, rfl⟩ := hp
          exact ⟨r2, rfl⟩
      · rintro (h1 | ⟨hb, r1, hne, ⟨r2, hp⟩, rfl⟩)
        · exact Or.inl (Or.inl h1)
        · cases r1 with
          | nil => exact absurd rfl hne
          | cons a r1 =>
            rw [List.cons_append] at hp
            cases hp
            by_cases h0 : r1 = []
            · subst h0
              exact Or.inl (Or.inr ⟨hb, rfl⟩)
            · exact Or.inr ⟨hb, r1, h0, ⟨r2, rfl⟩, by simp⟩

/-! ## The loop of `remove` -/

theorem NodeAt.snoc {t v : TNode} {p : Word} (r : NodeAt t p v) (h : t.kids.Ok) (hp : p ≠ []) :
    ∃ p0 v0 c, p = p0 ++ v.data ∧ NodeAt t p0 v0 ∧ v0.kids.child c = some v := by
  induction r with
  | here t => exact absurd rfl hp
  | @step t u v c q hu r ih =>
    by_cases hq : q = []
    · subst hq
      have : v = u := r.unique (h.child hu).2 (.here u)
      subst this
      exact ⟨[], t, c, by simp, .here t, hu⟩
    · obtain ⟨p0, v0, c', rfl, h1, h2⟩ := ih (h.child hu).2 hq
      exact ⟨u.data ++ p0, v0, c', by simp, .step hu h1, h2⟩

/-- some word at or below the string -/
def Covered (t : TNode) (q : Word) : Prop := ∃ w, (w, true) ∈ t.strs ∧ q <+: w

theorem climb_spec : ∀ (n : Nat) (t : Trie) (p : Word) (v : TNode), p.length < n →
    t.root.kids.Ok → t.root.data ≠ [] → t.root.word = false → NodeAt t.root p v →
    (∀ q b, (q, b) ∈ t.root.strs → q ≠ [] → Covered t.root q ∨ q <+: p) →
    ∃ res t', climbLoop n t p = (res, t') ∧ t'.root.kids.Ok ∧ t'.root.data = t.root.data ∧
      (∀ {q b}, (q, b) ∈ t'.root.strs ↔ (q, b) ∈ t.root.strs ∧ (q = [] ∨ Covered t.root q)) ∧
      (t'.count - t'.root.size = t.count - t.root.size) ∧
      ((∃ w, (w, true) ∈ t.root.strs) → res = .ok ()) ∧
      ((¬ ∃ w, (w, true) ∈ t.root.strs) → res = .error .attributeError)
  | 0, _, _, _, hn, _, _, _, _, _ => by omega
  | n + 1, t, p, v, hn, h, hd, hw, hr, H => by
    rw [climbLoop, hr.at h]
    simp only
    have hv := hr.ok h
    by_cases hc : v.word = false ∧ v.isLeaf = true
    · rw [if_pos hc]
      obtain ⟨hc1, hc2⟩ := hc
      have hleaf : v.kids = .nil := by simpa [TNode.isLeaf] using hc2
      have hvs : v.strs = [([], false)] := by rw [TNode.strs, hleaf, hc1]; rfl
      by_cases hp : p = []
      · subst hp
        have : v = t.root := hr.unique h (.here _)
        subst this
        cases hdd : t.root.data with
        | nil => exact absurd hdd hd
        | cons a d =>
          refine ⟨_, t, by simp; rfl, h, hdd, ?_, rfl, ?_, ?_⟩
          · intro q b
            rw [hvs]
            simp only [List.mem_singleton, Prod.mk.injEq]
            constructor
            · rintro ⟨rfl, rfl⟩; simp
            · rintro ⟨h1, _⟩; exact h1
          · rintro ⟨w, hw⟩
            rw [hvs] at hw
            simp at hw
          · intro _; rfl
      · obtain ⟨p0, v0, c, rfl, h1, h2⟩ := hr.snoc h hp
        have hv0 := h1.ok h
        obtain ⟨hdc, _⟩ := hv0.child h2
        obtain ⟨d, hdd⟩ : ∃ d, v.data = c :: d := by
          cases hh : v.data with
          | nil => rw [hh] at hdc; cases hdc
          | cons a d => rw [hh] at hdc; cases hdc; exact ⟨d, rfl⟩
        have hpath : (p0 ++ v.data).take ((p0 ++ v.data).length - v.data.length) = p0 := by
          simp
        rw [hpath]
        rw [hdd]
        simp only
        rw [← hdd, if_neg hp, h1.at h]
        simp only
        rw [h2]
        simp only
        obtain ⟨d1, d2, d3⟩ := delChild hv0 h2
        obtain ⟨m1, m2, m3, m4, m5⟩ :=
          h1.modify (f := fun m => { m with kids := m.kids.del c }) h rfl d1
        have hsv : v.size = 1 := by rw [TNode.size, hvs]; rfl
        -- the strings after the deletion
        have hstr : ∀ {q : Word} {b : Bool},
            (q, b) ∈ (t.root.modify (fun m => { m with kids := m.kids.del c }) p0).strs ↔
              (q, b) ∈ t.root.strs ∧ q ≠ p0 ++ v.data := by
          intro q b
          by_cases hq : p0 <+: q
          · obtain ⟨q', rfl⟩ := hq
            rw [m1.strs m2, d3, h1.strs h]
            constructor
            · rintro ⟨e1, e2⟩
              refine ⟨e1, ?_⟩
              intro e
              rw [List.append_cancel_left e] at e2
              exact e2 (List.prefix_refl _)
            · rintro ⟨e1, e2⟩
              refine ⟨e1, ?_⟩
              rintro ⟨q'', rfl⟩
              rw [TNode.strs_child hv0 h2, hvs] at e1
              simp at e1
              exact e2 (by simp [e1.1])
          · rw [m5 hq]
            have : q ≠ p0 ++ v.data := by rintro rfl; exact hq ⟨_, rfl⟩
            simp [this]
        have hnotw : ¬ (p0 ++ v.data, true) ∈ t.root.strs := by
          intro hh
          have := strs_flag h hh ((mem_strs h).2 ⟨v, hr, rfl⟩)
          rw [hc1] at this; cases this
        have hword : ∀ {w : Word},
            (w, true) ∈ (t.root.modify (fun m => { m with kids := m.kids.del c }) p0).strs ↔
              (w, true) ∈ t.root.strs := by
          intro w
          rw [hstr]
          constructor
          · exact fun hh => hh.1
          · intro hh
            refine ⟨hh, ?_⟩
            rintro rfl
            exact hnotw hh
        have hcov : ∀ {q : Word},
            Covered (t.root.modify (fun m => { m with kids := m.kids.del c }) p0) q ↔
              Covered t.root q := by
          intro q
          simp only [Covered, hword]
        have hpos := List.length_pos_of_ne_nil (data_ne hdc)
        obtain ⟨res, t', e, i1, i2, i3, i4, i5, i6⟩ := climb_spec n
          { t.modify (fun m => { m with kids := m.kids.del c }) p0 with
            count := (t.modify (fun m => { m with kids := m.kids.del c }) p0).count - 1 }
          p0 _ (by simp at hn; omega) m2 (by simp only [Trie.modify]; rw [m3]; exact hd) (by
            have := (TNode.strs_nil m2 (b := t.root.word)).1 (hstr.2
              ⟨(TNode.strs_nil h).2 rfl, by simpa using fun _ => data_ne hdc⟩)
            simp only [Trie.modify]
            rw [← this]; exact hw) m1 (by
            intro q b hq hne
            simp only [Trie.modify] at hq ⊢
            rw [hcov]
            obtain ⟨hq, hqp⟩ := hstr.1 hq
            rcases H q b hq hne with hh | hh
            · exact Or.inl hh
            · right
              rcases List.prefix_or_prefix_of_prefix hh ⟨v.data, rfl⟩ with hh' | ⟨q', rfl⟩
              · exact hh'
              · rw [h1.strs h] at hq
                cases q' with
                | nil => simp
                | cons a q' =>
                  obtain ⟨u, q2, hu, e1, _⟩ := (TNode.strs_cons hv0).1 hq
                  have hpre : a :: q' <+: v.data := by
                    exact (List.prefix_append_right_inj _).1 hh
                  have hac : a = c := by
                    rw [hdd] at hpre
                    exact (List.cons_prefix_cons.1 hpre).1
                  subst hac
                  rw [h2] at hu
                  cases hu
                  have : a :: q' = v.data :=
                    hpre.eq_of_length_le (by rw [e1]; simp)
                  exact absurd (by rw [this]) hqp)
        refine ⟨res, t', e, i1, by rw [i2]; exact m3, ?_, ?_, ?_, ?_⟩
        · intro q b
          rw [i3]
          simp only [Trie.modify]
          rw [hcov, hstr]
          constructor
          · rintro ⟨⟨e1, _⟩, e2⟩; exact ⟨e1, e2⟩
          · rintro ⟨e1, e2⟩
            refine ⟨⟨e1, ?_⟩, e2⟩
            rintro rfl
            rcases e2 with e2 | ⟨w, hw, w', rfl⟩
            · exact hp e2
            · rw [hr.strs h, hvs] at hw
              simp at hw
        · simp only [Trie.modify] at i4
          omega
        · intro ⟨w, hw⟩
          exact i5 ⟨w, hword.2 hw⟩
        · intro hh
          exact i6 (fun ⟨w, hw⟩ => hh ⟨w, hword.1 hw⟩)
    · rw [if_neg hc]
      have hcovp : Covered t.root p := by
        cases hvw : v.word with
        | true => exact ⟨p, (mem_strs h).2 ⟨v, hr, hvw⟩, List.prefix_refl _⟩
        | false =>
          have hk : v.kids ≠ .nil := by
            intro hh
            exact hc ⟨hvw, by simp [TNode.isLeaf, hh]⟩
          obtain ⟨e, he⟩ : ∃ e, e ∈ v.kids.strs := by
            cases hks : v.kids with
            | nil => exact absurd hks hk
            | cons k d b ks rest => exact ⟨(d, b), by simp [Kids.strs]⟩
          have hne := Kids.strs_ne hv (q := e.1) (b := e.2) he
          have hm : (p ++ e.1, e.2) ∈ t.root.strs := by
            rw [hr.strs h, TNode.strs]; exact List.mem_cons_of_mem _ he
          rcases H _ _ hm (by simp [hne]) with ⟨w, h1, h2⟩ | hh
          · exact ⟨w, h1, (List.prefix_append p e.1).trans h2⟩
          · exact absurd (hh.length_le) (by
              have := List.length_pos_of_ne_nil hne
              simp; omega)
      obtain ⟨w, hwm, hwp⟩ := hcovp
      refine ⟨_, t, rfl, h, rfl, ?_, rfl, fun _ => rfl, fun hh => absurd ⟨w, hwm⟩ hh⟩
      intro q b
      refine ⟨fun hq => ⟨hq, ?_⟩, fun hq => hq.1⟩
      by_cases hne : q = []
      · exact Or.inl hne
      · right
        rcases H q b hq hne with hh | hh
        · exact hh
        · exact ⟨w, hwm, hh.trans hwp⟩

end Extra
