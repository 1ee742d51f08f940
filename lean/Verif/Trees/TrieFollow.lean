import Verif.Trees.TrieProofs

/-!
# `_follow_path`, `__contains__`, `has_prefix` and `auto_complete` on any well-formed trie
-/

set_option linter.unusedSimpArgs false

namespace Extra

/-- `_follow_path` stops at the node with `r` remaining -/
def Stop (v : TNode) (r : Word) : Prop :=
  r = [] ∨ ∃ c r', r = c :: r' ∧ ((v.kids.child c = none ∧ c ≠ '}') ∨
    ∃ u, v.kids.child c = some u ∧ ¬ u.data <+: r)

/-- reading `w` meets a `}` for which there is no child; `r` is what follows -/
def Lost (t : TNode) (w r : Word) : Prop :=
  ∃ p v, w = p ++ '}' :: r ∧ NodeAt t p v ∧ v.kids.child '}' = none

theorem eq_take_iff {d w : Word} : d = w.take d.length ↔ d <+: w := by
  rw [List.prefix_iff_eq_take]

theorem followLoop_nil (n : Nat) (cur : Cursor) : followLoop n cur [] = .ok (cur, []) := by
  cases n <;> rfl

theorem follow_spec : ∀ (n : Nat) (w : Word), w.length ≤ n → ∀ (t : TNode) (p : Word), t.kids.Ok →
    (∃ p' v r, followLoop n (.node p t) w = .ok (.node (p ++ p') v, r) ∧ w = p' ++ r ∧
      NodeAt t p' v ∧ Stop v r) ∨
    (∃ r, Lost t w r ∧
      followLoop n (.node p t) w = if r = [] then .ok (.none, []) else .error .attributeError)
  | n, [], _, t, p, _ => by
    refine Or.inl ⟨[], t, [], ?_, rfl, .here t, Or.inl rfl⟩
    rw [followLoop_nil, List.append_nil]
  | 0, _ :: _, hn, _, _, _ => by simp at hn
  | n + 1, c :: w, hn, t, p, h => by
    rw [followLoop]
    cases hu : t.kids.child c with
    | none =>
      simp only
      by_cases e : c = '}'
      · right
        subst e
        refine ⟨w, ⟨[], t, rfl, .here t, hu⟩, ?_⟩
        rw [if_pos (by rfl)]
        cases w with
        | nil => simp [followLoop_nil]
        | cons a w =>
          cases n with
          | zero => simp at hn
          | succ n => simp [followLoop]
      · rw [if_neg (by simpa using fun h => e h.symm)]
        exact Or.inl ⟨[], t, c :: w, by rw [List.append_nil], rfl, .here t,
          Or.inr ⟨c, w, rfl, Or.inl ⟨hu, e⟩⟩⟩
    | some u =>
      simp only
      by_cases e : u.data <+: c :: w
      · rw [if_pos (eq_take_iff.2 e)]
        obtain ⟨hd, hk⟩ := h.child hu
        have hpos := List.length_pos_of_ne_nil (data_ne hd)
        obtain ⟨w', e'⟩ := e
        rw [← e', List.drop_left]
        have hl := congrArg List.length e'
        rw [List.length_append] at hl
        rcases follow_spec n w' (by simp at hl hn; omega) u (p ++ u.data) hk with
          ⟨p', v, r, h1, h2, h3, h4⟩ | ⟨r, ⟨p', v, h1, h2, h3⟩, h4⟩
        · exact Or.inl ⟨u.data ++ p', v, r, by rw [h1, List.append_assoc], by rw [h2, List.append_assoc],
            .step hu h3, h4⟩
        · exact Or.inr ⟨r, ⟨u.data ++ p', v, by rw [h1, List.append_assoc], .step hu h2, h3⟩, h4⟩
      · rw [if_neg (fun hh => e (eq_take_iff.1 hh))]
        exact Or.inl ⟨[], t, c :: w, by rw [List.append_nil], rfl, .here t,
          Or.inr ⟨c, w, rfl, Or.inr ⟨u, hu, e⟩⟩⟩

theorem Trie.follow_spec (t : Trie) (h : t.root.kids.Ok) (w : Word) :
    (∃ p v r, t.follow w = .ok (.node p v, r) ∧ w = p ++ r ∧ NodeAt t.root p v ∧ Stop v r) ∨
    (∃ r, Lost t.root w r ∧
      t.follow w = if r = [] then .ok (.none, []) else .error .attributeError) := by
  have := Extra.follow_spec w.length w le_rfl t.root [] h
  simpa [Trie.follow] using this

theorem Stop.mem {v : TNode} {r : Word} (s : Stop v r) (h : v.kids.Ok) {b : Bool}
    (hr : (r, b) ∈ v.strs) : r = [] := by
  rcases s with s | ⟨c, r', rfl, s⟩
  · exact s
  · obtain ⟨u, q, hu, e, _⟩ := (TNode.strs_cons h).1 hr
    rcases s with ⟨s, _⟩ | ⟨u', hu', s⟩
    · rw [s] at hu; cases hu
    · rw [hu] at hu'
      cases hu'
      exact absurd ⟨q, e.symm⟩ s

theorem Stop.prefix {v : TNode} {c : Char} {r q : Word} {b : Bool} (s : Stop v (c :: r))
    (h : v.kids.Ok) (hq : (q, b) ∈ v.strs) (hp : c :: r <+: q) :
    ∃ u, v.kids.child c = some u ∧ c :: r <+: u.data := by
  obtain ⟨q', rfl⟩ := hp
  rw [List.cons_append] at hq
  obtain ⟨u, q'', hu, e, _⟩ := (TNode.strs_cons h).1 hq
  refine ⟨u, hu, ?_⟩
  rcases s with s | ⟨c', r', e', s⟩
  · cases s
  · cases e'
    rcases s with ⟨s, _⟩ | ⟨u', hu', s⟩
    · rw [s] at hu; cases hu
    · rw [hu] at hu'
      cases hu'
      have h1 : u.data <+: c :: (r ++ q') := ⟨q'', e.symm⟩
      have h2 : c :: r <+: c :: (r ++ q') := ⟨q', rfl⟩
      rcases List.prefix_or_prefix_of_prefix h1 h2 with h3 | h3
      · exact absurd h3 s
      · exact h3

/-- a lost word is not a node -/
theorem Lost.not_prefix {t : TNode} {w r q : Word} {b : Bool} (l : Lost t w r) (h : t.kids.Ok)
    (hq : (q, b) ∈ t.strs) : ¬ w <+: q := by
  obtain ⟨p, v, rfl, hr, hc⟩ := l
  rintro ⟨q', rfl⟩
  rw [List.append_assoc, hr.strs h, List.cons_append] at hq
  obtain ⟨u, q'', hu, _, _⟩ := (TNode.strs_cons (hr.ok h)).1 hq
  rw [hc] at hu; cases hu

/-- `__contains__` on any well-formed trie -/
theorem trieContains_spec (t : Trie) (h : t.root.kids.Ok) (w : Word) :
    ((∃ r, Lost t.root w r) ∧ t.contains (.str w) = .error .attributeError) ∨
    ((¬ ∃ r, Lost t.root w r) ∧ t.contains (.str w) = .ok (decide ((w, true) ∈ t.root.strs))) := by
  rcases t.follow_spec h w with ⟨p, v, r, e, rfl, hr, s⟩ | ⟨r, l, e⟩
  · right
    refine ⟨?_, ?_⟩
    · rintro ⟨r', p', v', e', hr', hc⟩
      -- the two ways part at a node, one stops and the other goes on
      have hv := hr.ok h
      rcases Nat.lt_or_ge p.length (p'.length + 1) with hl | hl
      · -- p is a prefix of p'
        obtain ⟨q, rfl⟩ : p <+: p' := by
          have h1 : p <+: p ++ r := ⟨r, rfl⟩
          have h2 : p' <+: p ++ r := ⟨_, e'.symm⟩
          exact List.prefix_of_prefix_length_le h1 h2 (by omega)
        rw [List.append_assoc] at e'
        have e2 := List.append_cancel_left e'
        -- within v
        have hm : (q, v'.word) ∈ v.strs := by
          rw [← hr.strs h]; exact (mem_strs h).2 ⟨v', hr', rfl⟩
        cases q with
        | nil =>
          have : v' = v := by
            rw [List.append_nil] at hr'; exact hr'.unique h hr
          subst this
          rcases s with s | ⟨c, r'', rfl, s⟩
          · rw [s] at e2; simp at e2
          · simp at e2
            obtain ⟨rfl, rfl⟩ := e2
            rcases s with ⟨_, s⟩ | ⟨u, hu, _⟩
            · exact s rfl
            · rw [hc] at hu; cases hu
        | cons a q =>
          obtain ⟨u, q2, hu, e3, _⟩ := (TNode.strs_cons hv).1 hm
          rcases s with s | ⟨c, r'', rfl, s⟩
          · rw [s] at e2; simp at e2
          · rw [List.cons_append] at e2
            cases e2
            rcases s with ⟨s, _⟩ | ⟨u', hu', s⟩
            · rw [s] at hu; cases hu
            · rw [hu] at hu'
              cases hu'
              apply s
              refine ⟨q2 ++ '}' :: r', ?_⟩
              rw [← List.append_assoc, ← e3]; rfl
      · -- p' ++ ['}'] is a prefix of p
        have hpre : p' ++ ['}'] <+: p := by
          have h1 : p <+: p ++ r := ⟨r, rfl⟩
          have h2 : p' ++ ['}'] <+: p ++ r := ⟨r', by rw [e']; simp⟩
          exact List.prefix_of_prefix_length_le h2 h1 (by simpa using hl)
        exact Lost.not_prefix ⟨p', v', rfl, hr', hc⟩ h ((mem_strs h).2 ⟨v, hr, rfl⟩) hpre
    · simp only [Trie.contains, e]
      by_cases hr0 : r = []
      · subst hr0
        simp only [if_true, Cursor.isWord, List.append_nil]
        congr 1
        have : (p, v.word) ∈ t.root.strs := (mem_strs h).2 ⟨v, hr, rfl⟩
        cases hw : v.word with
        | true => rw [hw] at this; simp [this]
        | false =>
          rw [hw] at this
          have : ¬ (p, true) ∈ t.root.strs := fun hh => by cases strs_flag h this hh
          simp [this]
      · rw [if_neg hr0]
        congr 1
        have : ¬ (p ++ r, true) ∈ t.root.strs := by
          intro hh
          rw [hr.strs h] at hh
          exact hr0 (s.mem (hr.ok h) hh)
        simp [this]
  · left
    refine ⟨⟨r, l⟩, ?_⟩
    simp only [Trie.contains, e]
    by_cases hr : r = []
    · simp [hr, Cursor.isWord]
    · simp [hr]

theorem follow_not_lost {t : Trie} (h : t.root.kids.Ok) {w : Word} (hn : ¬ ∃ r, Lost t.root w r) :
    ∃ p v r, t.follow w = .ok (.node p v, r) ∧ w = p ++ r ∧ NodeAt t.root p v ∧ Stop v r := by
  rcases t.follow_spec h w with hh | ⟨r, l, _⟩
  · exact hh
  · exact absurd ⟨r, l⟩ hn

theorem follow_lost {t : Trie} (h : t.root.kids.Ok) {w r : Word} (l : Lost t.root w r) :
    ∃ r', Lost t.root w r' ∧
      t.follow w = if r' = [] then .ok (.none, []) else .error .attributeError := by
  rcases trieContains_spec t h w with ⟨_, hc⟩ | ⟨hn, _⟩
  · rcases t.follow_spec h w with ⟨p, v, r, e, rfl, hr, s⟩ | hh
    · simp only [Trie.contains, e] at hc
      by_cases hr0 : r = []
      · rw [if_pos hr0] at hc; cases hc
      · rw [if_neg hr0] at hc; cases hc
    · exact hh
  · exact absurd ⟨r, l⟩ hn

/-- the place where a word is lost is determined -/
theorem Lost.unique {t : TNode} (h : t.kids.Ok) {w r r' : Word} (l : Lost t w r) (l' : Lost t w r') :
    r = r' := by
  obtain ⟨p, v, rfl, hr, hc⟩ := l
  obtain ⟨p', v', e', hr', hc'⟩ := l'
  have key : ∀ {p p' r r' : Word} {v v' : TNode}, p ++ '}' :: r = p' ++ '}' :: r' →
      NodeAt t p v → v.kids.child '}' = none → NodeAt t p' v' → v'.kids.child '}' = none →
      ¬ p.length < p'.length := by
    intro p p' r r' v v' e hr hc hr' hc' hl
    have hpre : p ++ ['}'] <+: p' := by
      have h1 : p' <+: p ++ '}' :: r := ⟨_, e.symm⟩
      have h2 : p ++ ['}'] <+: p ++ '}' :: r := ⟨r, by simp⟩
      exact List.prefix_of_prefix_length_le h2 h1 (by simp; omega)
    exact Lost.not_prefix ⟨p, v, rfl, hr, hc⟩ h ((mem_strs h).2 ⟨v', hr', rfl⟩) hpre
  have h1 := key e' hr hc hr' hc'
  have h2 := key e'.symm hr' hc' hr hc
  have hl : p.length = p'.length := by omega
  have := List.append_inj_right e' hl
  exact (List.cons.inj this).2

/-- `has_prefix` on any well-formed trie -/
theorem hasPrefix_spec (t : Trie) (h : t.root.kids.Ok) (w : Word) :
    ((¬ ∃ r, Lost t.root w r) ∧
      ∃ b, t.hasPrefix (.str w) = .ok b ∧ (b = true ↔ ∃ q b', (q, b') ∈ t.root.strs ∧ w <+: q)) ∨
    (∃ r, Lost t.root w r ∧ t.hasPrefix (.str w) = if r = [] then .ok true else .error .attributeError) := by
  by_cases hn : ∃ r, Lost t.root w r
  · right
    obtain ⟨r, l⟩ := hn
    obtain ⟨r', l', e⟩ := follow_lost h l
    refine ⟨r', l', ?_⟩
    simp only [Trie.hasPrefix, e]
    by_cases hr : r' = []
    · simp [hr]
    · simp [hr]
  · left
    refine ⟨hn, ?_⟩
    obtain ⟨p, v, r, e, rfl, hr, s⟩ := follow_not_lost h hn
    cases r with
    | nil =>
      refine ⟨true, by simp only [Trie.hasPrefix, e], ?_⟩
      simp only [true_iff]
      exact ⟨p, v.word, (mem_strs h).2 ⟨v, hr, rfl⟩, by simp⟩
    | cons c r =>
      refine ⟨_, by simp only [Trie.hasPrefix, e]; rfl, ?_⟩
      rw [decide_eq_true_iff]
      have hv := hr.ok h
      constructor
      · intro hh
        cases hu : v.kids.child c with
        | none => simp [TNode.childData, hu] at hh
        | some u =>
          simp only [TNode.childData, hu] at hh
          refine ⟨p ++ u.data, u.word, (mem_strs h).2 ⟨u, hr.trans (.child hu), rfl⟩, ?_⟩
          rw [List.prefix_append_right_inj, List.prefix_iff_eq_take]
          exact hh.symm
      · rintro ⟨q, b', hq, hp⟩
        obtain ⟨q', rfl⟩ := hp
        rw [List.append_assoc, hr.strs h] at hq
        obtain ⟨u, hu, hd⟩ := s.prefix hv hq ⟨q', rfl⟩
        simp only [TNode.childData, hu]
        exact (List.prefix_iff_eq_take.1 hd).symm

/-! ## Candidates -/

theorem Kids.candidates_eq : ∀ (ks : Kids) (acc : Word), ks.candidates acc =
    (ks.strs.filter (fun e => e.2)).map (fun e => acc ++ e.1)
  | .nil, _ => rfl
  | .cons k d b ks rest, acc => by
    rw [Kids.candidates, Kids.candidates_eq ks, Kids.candidates_eq rest, Kids.strs]
    rw [List.filter_cons, List.filter_append, List.filter_map]
    have : (fun e : Word × Bool => e.2) ∘ (fun e : Word × Bool => (d ++ e.1, e.2)) = fun e => e.2 := rfl
    rw [this]
    cases b <;> simp [Function.comp_def]

theorem TNode.candidates_eq (t : TNode) (pre : Word) : t.candidates pre =
    (t.strs.filter (fun e => e.2)).map (fun e => pre ++ e.1) := by
  rw [TNode.candidates, Kids.candidates_eq, TNode.strs, List.filter_cons]
  cases t.word <;> simp

theorem TNode.mem_candidates {t v : TNode} {p : Word} (h : t.kids.Ok) (hr : NodeAt t p v) {x : Word} :
    x ∈ v.candidates p ↔ p <+: x ∧ (x, true) ∈ t.strs := by
  rw [TNode.candidates_eq]
  simp only [List.mem_map, List.mem_filter]
  constructor
  · rintro ⟨⟨q, b⟩, ⟨hq, hb⟩, rfl⟩
    simp only at hb
    subst hb
    exact ⟨⟨q, rfl⟩, (hr.strs h).2 hq⟩
  · rintro ⟨⟨q, rfl⟩, hx⟩
    exact ⟨(q, true), ⟨(hr.strs h).1 hx, rfl⟩, rfl⟩

theorem TNode.candidates_nodup {t : TNode} (h : t.kids.Ok) (pre : Word) :
    (t.candidates pre).Nodup := by
  have h1 : ((t.strs.filter (fun e => e.2)).map Prod.fst).Nodup :=
    (TNode.nodup h).sublist (List.Sublist.map _ List.filter_sublist)
  rw [TNode.candidates_eq]
  have : (fun e : Word × Bool => pre ++ e.1) = (fun q => pre ++ q) ∘ Prod.fst := rfl
  rw [this, ← List.map_map]
  exact h1.map (fun _ _ e => List.append_cancel_left e)

end Extra
