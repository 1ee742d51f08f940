import Verif.Trees.DrawTreeProofs
import Verif.Trees.RadixRefine

/-!
# Helper lemmas for the drawing of `Trie` and `RadixTrie`
-/

namespace Extra
variable {V : Type}

mutual
/-- all values of a tree satisfy `P` -/
def RTree.Every (P : V → Prop) : RTree V → Prop
  | .node d cs => P d ∧ RTree.EveryAll P cs
def RTree.EveryAll (P : V → Prop) : List (RTree V) → Prop
  | [] => True
  | c :: cs => c.Every P ∧ RTree.EveryAll P cs
end

theorem RTree.EveryAll.get {P : V → Prop} : ∀ {cs : List (RTree V)}, RTree.EveryAll P cs →
    ∀ {i : Nat} {c : RTree V}, cs[i]? = some c → c.Every P
  | [], _, _, _, h => by simp at h
  | c :: cs, h, 0, d, hd => by
    rw [RTree.EveryAll] at h
    simp only [List.getElem?_cons_zero, Option.some.injEq] at hd
    exact hd ▸ h.1
  | c :: cs, h, i + 1, d, hd => by
    rw [RTree.EveryAll] at h
    exact RTree.EveryAll.get h.2 (by simpa using hd)

theorem RTree.Every.sub {P : V → Prop} {p : List Nat} : ∀ {t s : RTree V}, t.Every P →
    t.sub p = some s → P s.data := by
  induction p with
  | nil =>
    rintro ⟨d, cs⟩ s h hs
    rw [RTree.sub_nil] at hs
    cases hs
    rw [RTree.Every] at h
    exact h.1
  | cons i p ih =>
    rintro ⟨d, cs⟩ s h hs
    rw [RTree.sub_cons] at hs
    rw [RTree.Every] at h
    cases hc : cs[i]? with
    | none => rw [hc] at hs; cases hs
    | some c =>
      rw [hc] at hs
      exact ih (h.2.get hc) hs

mutual
theorem RTree.labels_inj {W : Type} {f : V → W} {P : V → Prop}
    (hf : ∀ x y, P x → P y → f x = f y → x = y) : ∀ (s t : RTree V), s.Every P → t.Every P →
    s.labels f = t.labels f → s = t
  | .node d cs, .node e ds, h1, h2, h => by
    rw [RTree.Every] at h1 h2
    rw [RTree.labels, RTree.labels, RTree.node.injEq] at h
    rw [hf d e h1.1 h2.1 h.1, RTree.labelsAll_inj hf cs ds h1.2 h2.2 h.2]
theorem RTree.labelsAll_inj {W : Type} {f : V → W} {P : V → Prop}
    (hf : ∀ x y, P x → P y → f x = f y → x = y) : ∀ (cs ds : List (RTree V)), RTree.EveryAll P cs →
    RTree.EveryAll P ds → RTree.labelsAll f cs = RTree.labelsAll f ds → cs = ds
  | [], [], _, _, _ => rfl
  | [], _ :: _, _, _, h => by rw [RTree.labelsAll, RTree.labelsAll] at h; cases h
  | _ :: _, [], _, _, h => by rw [RTree.labelsAll, RTree.labelsAll] at h; cases h
  | c :: cs, d :: ds, h1, h2, h => by
    rw [RTree.EveryAll] at h1 h2
    rw [RTree.labelsAll, RTree.labelsAll, List.cons.injEq] at h
    rw [RTree.labels_inj hf c d h1.1 h2.1 h.1, RTree.labelsAll_inj hf cs ds h1.2 h2.2 h.2]
end

/-- the strings of a trie can be read off the flagged tree -/
theorem Kids.strs_flagged : ∀ (ks ls : Kids), ks.flagged = ls.flagged → ks.strs = ls.strs
  | .nil, .nil, _ => rfl
  | .nil, .cons .., h => by rw [Kids.flagged, Kids.flagged] at h; cases h
  | .cons .., .nil, h => by rw [Kids.flagged, Kids.flagged] at h; cases h
  | .cons _ d b ks rest, .cons _ e c ls rest', h => by
    rw [Kids.flagged, Kids.flagged, List.cons.injEq, RTree.node.injEq, Prod.mk.injEq] at h
    obtain ⟨⟨⟨rfl, rfl⟩, h2⟩, h3⟩ := h
    rw [Kids.strs, Kids.strs, Kids.strs_flagged ks ls h2, Kids.strs_flagged rest rest' h3]

theorem Kids.every {P : Word × Bool → Prop} : ∀ {ks : Kids}, ks.Ok →
    (∀ c u, ks.child c = some u → ∀ q w, NodeAt u q w → P (w.data, w.word)) →
    RTree.EveryAll P ks.flagged
  | .nil, _, _ => trivial
  | .cons k d b ks rest, h, H => by
    obtain ⟨_, h2, h3, h4⟩ := h
    have hk := H k ⟨d, b, ks⟩ (by rw [Kids.child, if_pos rfl])
    rw [Kids.flagged, RTree.EveryAll, RTree.Every]
    refine ⟨⟨hk _ _ (.here _), ?_⟩, ?_⟩
    · exact Kids.every h3 fun c u hu q w hw => hk _ _ (.step (t := ⟨d, b, ks⟩) hu hw)
    · refine Kids.every h4 fun c u hu => H c u ?_
      rw [Kids.child, if_neg]
      · exact hu
      · rintro rfl
        rw [h2] at hu
        cases hu

/-- the last step to a node -/
theorem NodeAt.last {t w : TNode} {p : Word} (r : NodeAt t p w) : (p = [] ∧ w = t) ∨
    ∃ p' v c, NodeAt t p' v ∧ v.kids.child c = some w ∧ p = p' ++ w.data := by
  induction r with
  | here t => exact Or.inl ⟨rfl, rfl⟩
  | @step t u v c q hu r ih =>
    right
    rcases ih with ⟨rfl, rfl⟩ | ⟨p', v', c', h1, h2, h3⟩
    · exact ⟨[], t, c, .here t, hu, by simp⟩
    · exact ⟨u.data ++ p', v', c', .step hu h1, h2, by rw [h3, List.append_assoc]⟩

/-- what holds of all nodes but the root -/
theorem TNode.every {P : Word × Bool → Prop} {t : TNode} (h : t.kids.Ok)
    (H : ∀ p v c w, NodeAt t p v → v.kids.child c = some w → P (w.data, w.word)) :
    RTree.EveryAll P t.kids.flagged := by
  refine Kids.every h fun c u hu q w hw => ?_
  rcases (NodeAt.step hu hw).last with ⟨h1, _⟩ | ⟨p', v, c', h1, h2, _⟩
  · exfalso
    rw [List.append_eq_nil_iff] at h1
    exact data_ne (h.child hu).1 h1.1
  · exact H p' v c' w h1 h2

theorem Trie.isEmpty_iff {t : Trie} (hc : t.count = t.root.size) : t.isEmpty = true ↔ t.root.kids = .nil := by
  rw [Trie.isEmpty, decide_eq_true_eq, hc, TNode.size_eq]
  cases h : t.root.kids with
  | nil => simp [Kids.size, Kids.strs]
  | cons k d b ks rest =>
    simp [Kids.size, Kids.strs]
    omega

theorem Trie.repr_full {t : Trie} (hc : t.count = t.root.size) (hne : t.root.kids ≠ .nil) :
    t.repr = joinLines (t.root.flagged.drawSub trieLabel [] false []) := by
  rw [Trie.repr, if_neg (by rwa [Trie.isEmpty_iff hc])]
  have : t.root.kids.flagged.isEmpty = false := by
    cases h : t.root.kids with
    | nil => exact absurd h hne
    | cons => rfl
  rw [TNode.flagged, treeRepr, this]
  rfl

mutual
theorem RTree.Every.imp {P Q : V → Prop} (h : ∀ x, P x → Q x) : ∀ {t : RTree V}, t.Every P → t.Every Q
  | .node d cs, ht => by
    rw [RTree.Every] at ht ⊢
    exact ⟨h _ ht.1, RTree.EveryAll.imp h ht.2⟩
theorem RTree.EveryAll.imp {P Q : V → Prop} (h : ∀ x, P x → Q x) : ∀ {cs : List (RTree V)},
    RTree.EveryAll P cs → RTree.EveryAll Q cs
  | [], _ => trivial
  | c :: cs, hc => by
    rw [RTree.EveryAll] at hc ⊢
    exact ⟨RTree.Every.imp h hc.1, RTree.EveryAll.imp h hc.2⟩
end

theorem Trie.oneLine {P : Word × Bool → Prop} (hn : ∀ x, P x → '\n' ∉ x.1) {t : Trie}
    (h1 : t.root.word = false) (h2 : t.root.data = "ROOT".toList)
    (h3 : RTree.EveryAll P t.root.kids.flagged) : t.root.flagged.OneLine trieLabel := by
  have : RTree.Every (fun x : Word × Bool => '\n' ∉ trieLabel x) t.root.flagged := by
    rw [TNode.flagged, RTree.Every]
    refine ⟨by rw [trieLabel, h1, h2]; decide, h3.imp fun x hx => ?_⟩
    have := hn x hx
    rw [trieLabel]
    split <;> simp [this]
  exact fun p s hs => this.sub hs

/-- two tries with the same drawing have the same strings, if labels can be told apart -/
theorem Trie.repr_inj {P : Word × Bool → Prop}
    (hP : ∀ x y, P x → P y → trieLabel x = trieLabel y → x = y) (hn : ∀ x, P x → '\n' ∉ x.1)
    {t u : Trie} (ht : t.count = t.root.size) (hu : u.count = u.root.size)
    (htr : t.root.word = false) (hur : u.root.word = false) (htd : t.root.data = "ROOT".toList)
    (hud : u.root.data = "ROOT".toList) (hte : RTree.EveryAll P t.root.kids.flagged)
    (hue : RTree.EveryAll P u.root.kids.flagged) (h : t.repr = u.repr) : t.root.strs = u.root.strs := by
  have two : ∀ {t : Trie}, t.root.data = "ROOT".toList → t.root.word = false →
      t.count = t.root.size → t.root.kids ≠ .nil → t.repr.head? = some 'R' := by
    intro t h1 h2 h3 h4
    rw [Trie.repr_full h3 h4, TNode.flagged, RTree.drawSub, RTree.drawKids_acc, List.nil_append]
    cases hk : RTree.drawKids trieLabel t.root.kids.flagged [] ([] ++ [false]) with
    | nil => simp [joinLines, linePrefix, trieLabel, h1, h2]
    | cons l ls => simp [joinLines, linePrefix, trieLabel, h1, h2]
  have dash : ∀ {t : Trie}, t.count = t.root.size → t.root.kids = .nil → t.repr.head? = some '-' := by
    intro t h1 h2
    rw [Trie.repr, if_pos ((Trie.isEmpty_iff h1).2 h2)]
    rfl
  by_cases e1 : t.root.kids = .nil
  · by_cases e2 : u.root.kids = .nil
    · rw [TNode.strs, TNode.strs, htr, hur, e1, e2]
    · have := dash ht e1
      rw [h, two hud hur hu e2] at this
      exact absurd this (by decide)
  · by_cases e2 : u.root.kids = .nil
    · have := dash hu e2
      rw [← h, two htd htr ht e1] at this
      exact absurd this (by decide)
    · rw [Trie.repr_full ht e1, Trie.repr_full hu e2] at h
      have e := joinLines_inj (RTree.draw_ne _ _) (RTree.draw_ne _ _)
        (RTree.draw_one (Trie.oneLine hn htr htd hte)) (RTree.draw_one (Trie.oneLine hn hur hud hue)) h
      have kids : ∀ {ks : Kids}, ks ≠ .nil → ks.flagged.isEmpty = false := by
        intro ks hk
        cases ks with
        | nil => exact absurd rfl hk
        | cons => rfl
      have l := RTree.draw_inj (by
        show t.root.kids.flagged.isEmpty = u.root.kids.flagged.isEmpty
        rw [kids e1, kids e2]) e
      rw [TNode.flagged, TNode.flagged, RTree.labels, RTree.labels, RTree.node.injEq] at l
      have := Kids.strs_flagged _ _ (RTree.labelsAll_inj hP _ _ hte hue l.2)
      rw [TNode.strs, TNode.strs, htr, hur, this]

theorem not_mem_of_append {c : Char} {p d w : Word} (h : p ++ d <+: w) (hw : c ∉ w) : c ∉ d :=
  fun hd => hw (h.subset (List.mem_append_right _ hd))

theorem TrieInv.every {t : Trie} {S : List Word} (I : TrieInv t S) (hS : ∀ w ∈ S, '\n' ∉ w) :
    RTree.EveryAll (fun x => x.1.length = 1 ∧ '\n' ∉ x.1) t.root.kids.flagged := by
  refine TNode.every I.ok fun p v c w hv hw => ?_
  refine ⟨by rw [I.single hv hw]; rfl, ?_⟩
  have h1 : reaches S (p ++ w.data) = true :=
    (I.nodes _).1 ⟨w.word, (mem_strs I.ok).2 ⟨w, hv.trans (.child hw), rfl⟩⟩
  rcases reaches_iff.1 h1 with h2 | ⟨u, hu, h2⟩
  · rw [List.append_eq_nil_iff] at h2
    rw [h2.2]; simp
  · exact not_mem_of_append h2 (hS u hu)

theorem RadixInv.every {t : Trie} {s : RadixState} (I : RadixInv t s) (hS : ∀ w ∈ s.words, '\n' ∉ w)
    (hc : ∀ w ∈ s.words, '✓' ∉ w) :
    RTree.EveryAll (fun x => '✓' ∉ x.1 ∧ '\n' ∉ x.1) t.root.kids.flagged := by
  refine TNode.every I.ok fun p v c w hv hw => ?_
  have h1 := I.cover _ ((I.nodes (p ++ w.data)).1 ⟨w.word, (mem_strs I.ok).2 ⟨w, hv.trans (.child hw), rfl⟩⟩)
  rcases reaches_iff.1 h1 with h2 | ⟨u, hu, h2⟩
  · rw [List.append_eq_nil_iff] at h2
    rw [h2.2]; simp
  · exact ⟨not_mem_of_append h2 (hc u hu), not_mem_of_append h2 (hS u hu)⟩

end Extra
