import Verif.Lists.SkipListSearch

/-! # The steps of `insert` and `remove` on a skip list (no property content) -/

set_option linter.unusedSectionVars false
set_option linter.unusedSimpArgs false
attribute [local irreducible] Extra.upd

namespace Extra
variable {N : Type} [LinearOrder N] [OrderBot N]
attribute [local instance] numData

theorem Geo.frame {h h' : SHeap N} {T : List (Lvl N)} {S L : Addr → Prop} (g : Geo h T)
    (f : Frame h h' S L) (hS : ∀ (i : Nat) t, T[i]? = some t → ∀ a ∈ t.ns, ¬ S a)
    (hL : ∀ (i : Nat) t, T[i]? = some t → ¬ L t.l) : Geo h' T := by
  have hn : ∀ (i : Nat) t, T[i]? = some t → ∀ a ∈ t.ns, h'.node a = h.node a :=
    fun i t ht a ha => f.node a ((g.lvl i t ht).1.bound a ha) (hS i t ht a ha)
  refine ⟨fun i t ht => ⟨(g.lvl i t ht).1.frame f (hS i t ht) (hL i t ht), (g.lvl i t ht).2⟩,
    ?_, ?_, g.disj⟩
  · intro i b u hb hu a ha
    obtain ⟨d, hd, e1, e2⟩ := g.downs i b u hb hu a ha
    exact ⟨d, hd, by rw [hn _ u hu a ha]; exact e1, by rw [hn _ u hu a ha, hn _ b hb d hd]; exact e2⟩
  · intro b hb a ha
    rw [hn _ b hb a ha]
    exact g.base b hb a ha

/-- a level got a new node -/
theorem Geo.insert {h h' : SHeap N} {T : List (Lvl N)} {i : Nat} {t t' : Lvl N} {n : Addr}
    {dn : Option Addr} {v : N} (g : Geo h T) (ht : T[i]? = some t) (o : LvlOk h' t')
    (f : Frame h h' (fun a => a ∈ t.ns) (· = t.l)) (el : t'.l = t.l)
    (ens : ∀ a, a ∈ t'.ns ↔ a = n ∨ a ∈ t.ns) (hn : h.nNodes ≤ n)
    (same : ∀ a, a < h.nNodes → (h'.node a).data = (h.node a).data ∧ (h'.node a).ext = (h.node a).ext)
    (hdn : (h'.node n).ext = dn) (hdv : (h'.node n).data = some v) (h0 : i = 0 → dn = none)
    (h1 : ∀ j b, i = j + 1 → T[j]? = some b →
      ∃ d ∈ b.ns, dn = some d ∧ (h.node d).data = some v) :
    Geo h' (T.set i t') := by
  have bd : ∀ (j : Nat) u, T[j]? = some u → ∀ a ∈ u.ns, a < h.nNodes :=
    fun j u hu a ha => (g.lvl j u hu).1.bound a ha
  have get : ∀ (j : Nat) u, (T.set i t')[j]? = some u → (j = i ∧ u = t') ∨ (j ≠ i ∧ T[j]? = some u) := by
    intro j u hu
    rw [List.getElem?_set] at hu
    by_cases hj : i = j
    · subst hj
      rw [if_pos rfl] at hu
      split at hu
      · left; exact ⟨rfl, (Option.some.inj hu).symm⟩
      · cases hu
    · rw [if_neg hj] at hu
      exact Or.inr ⟨fun e => hj e.symm, hu⟩
  refine ⟨?_, ?_, ?_, ?_⟩
  · intro j u hu
    have gz := get j u hu
    clear hu
    rcases gz with ⟨rfl, rfl⟩ | ⟨hj, hu⟩
    · exact o
    · have := g.disj j i u t hj hu ht
      exact ⟨(g.lvl j u hu).1.frame f this.1 this.2, (g.lvl j u hu).2⟩
  · intro j b u hb hu a ha
    have gz := get j b hb
    clear hb
    rcases gz with ⟨rfl, rfl⟩ | ⟨hj, hb⟩
    · have gz := get _ u hu
      clear hu
      rcases gz with ⟨hc, _⟩ | ⟨hj2, hu⟩
      · omega
      · obtain ⟨d, hd, e1, e2⟩ := g.downs j t u ht hu a ha
        have s1 := same a (bd _ u hu a ha)
        have s2 := same d (bd _ t ht d hd)
        exact ⟨d, (ens d).2 (Or.inr hd), by rw [s1.2, e1], by rw [s1.1, s2.1, e2]⟩
    · have gz := get _ u hu
      clear hu
      rcases gz with ⟨hc, rfl⟩ | ⟨hj2, hu⟩
      · rcases (ens a).1 ha with rfl | ha
        · obtain ⟨d, hd, e1, e2⟩ := h1 j b hc.symm hb
          exact ⟨d, hd, by rw [hdn, e1], by rw [hdv, (same d (bd _ b hb d hd)).1, e2]⟩
        · subst hc
          obtain ⟨d, hd, e1, e2⟩ := g.downs j b t hb ht a ha
          have s1 := same a (bd _ t ht a ha)
          have s2 := same d (bd _ b hb d hd)
          exact ⟨d, hd, by rw [s1.2, e1], by rw [s1.1, s2.1, e2]⟩
      · obtain ⟨d, hd, e1, e2⟩ := g.downs j b u hb hu a ha
        have s1 := same a (bd _ u hu a ha)
        have s2 := same d (bd _ b hb d hd)
        exact ⟨d, hd, by rw [s1.2, e1], by rw [s1.1, s2.1, e2]⟩
  · intro b hb a ha
    have gz := get 0 b hb
    clear hb
    rcases gz with ⟨hj, rfl⟩ | ⟨hj, hb⟩
    · rcases (ens a).1 ha with rfl | ha
      · rw [hdn]; exact h0 hj.symm
      · subst hj
        rw [(same a (bd _ t ht a ha)).2]
        exact g.base t ht a ha
    · rw [(same a (bd _ b hb a ha)).2]
      exact g.base b hb a ha
  · intro j k u w hjk hu hw
    have gz := get j u hu
    clear hu
    rcases gz with ⟨rfl, rfl⟩ | ⟨hj, hu⟩
    · have gz := get k w hw
      clear hw
      rcases gz with ⟨rfl, rfl⟩ | ⟨hk, hw⟩
      · exact absurd rfl hjk
      · have := g.disj _ k t w hjk ht hw
        refine ⟨?_, by rw [el]; exact this.2⟩
        intro a ha haw
        rcases (ens a).1 ha with rfl | ha
        · have := bd _ w hw _ haw; omega
        · exact this.1 a ha haw
    · have gz := get k w hw
      clear hw
      rcases gz with ⟨rfl, rfl⟩ | ⟨hk, hw⟩
      · have := g.disj j _ u t hjk hu ht
        refine ⟨?_, by rw [el]; exact this.2⟩
        intro a ha haw
        rcases (ens a).1 haw with rfl | haw
        · have := bd _ u hu _ ha; omega
        · exact this.1 a ha haw
      · exact g.disj j k u w hjk hu hw

/-- a level lost the node `n` -/
theorem Geo.remove {h h' : SHeap N} {T : List (Lvl N)} {i : Nat} {t t' : Lvl N} {n : Addr}
    {v : N} (g : Geo h T) (ht : T[i]? = some t) (o : LvlOk h' t')
    (f : Frame h h' (fun a => a ∈ t.ns) (· = t.l)) (el : t'.l = t.l)
    (ens : ∀ a, a ∈ t.ns → a ∈ t'.ns ∨ a = n) (ens' : ∀ a, a ∈ t'.ns → a ∈ t.ns)
    (sdata : ∀ a ∈ t'.ns, (h'.node a).data = (h.node a).data)
    (sext : ∀ a, (h'.node a).ext = (h.node a).ext)
    (hdv : (h.node n).data = some v)
    (h1 : ∀ u, T[i + 1]? = some u → v ∉ ⊥ :: u.xs) :
    Geo h' (T.set i t') := by
  have get : ∀ (j : Nat) u, (T.set i t')[j]? = some u → (j = i ∧ u = t') ∨ (j ≠ i ∧ T[j]? = some u) := by
    intro j u hu
    rw [List.getElem?_set] at hu
    by_cases hj : i = j
    · subst hj
      rw [if_pos rfl] at hu
      split at hu
      · left; exact ⟨rfl, (Option.some.inj hu).symm⟩
      · cases hu
    · rw [if_neg hj] at hu
      exact Or.inr ⟨fun e => hj e.symm, hu⟩
  have other : ∀ (j : Nat) u, j ≠ i → T[j]? = some u → ∀ a ∈ u.ns, h'.node a = h.node a := by
    intro j u hj hu a ha
    exact f.node a ((g.lvl j u hu).1.bound a ha) ((g.disj j i u t hj hu ht).1 a ha)
  refine ⟨?_, ?_, ?_, ?_⟩
  · intro j u hu
    have gz := get j u hu
    clear hu
    rcases gz with ⟨rfl, rfl⟩ | ⟨hj, hu⟩
    · exact o
    · have := g.disj j i u t hj hu ht
      exact ⟨(g.lvl j u hu).1.frame f this.1 this.2, (g.lvl j u hu).2⟩
  · intro j b u hb hu a ha
    have gz := get j b hb
    clear hb
    rcases gz with ⟨rfl, rfl⟩ | ⟨hj, hb⟩
    · have gz := get _ u hu
      clear hu
      rcases gz with ⟨hc, _⟩ | ⟨hj2, hu⟩
      · omega
      · obtain ⟨d, hd, e1, e2⟩ := g.downs j t u ht hu a ha
        have hdn : d ∈ b.ns := by
          rcases ens d hd with h2 | rfl
          · exact h2
          · exfalso
            obtain ⟨x, hx, ex⟩ := map_some_mem (g.lvl _ u hu).1.data ha
            rw [hdv, ex] at e2
            cases e2
            exact h1 u hu hx
        exact ⟨d, hdn, by rw [sext, e1], by rw [sdata d hdn, other _ u hj2 hu a ha, e2]⟩
    · have gz := get _ u hu
      clear hu
      rcases gz with ⟨hc, rfl⟩ | ⟨hj2, hu⟩
      · subst hc
        obtain ⟨d, hd, e1, e2⟩ := g.downs j b t hb ht a (ens' a ha)
        exact ⟨d, hd, by rw [sext, e1], by rw [sdata a ha, other _ b hj hb d hd, e2]⟩
      · obtain ⟨d, hd, e1, e2⟩ := g.downs j b u hb hu a ha
        exact ⟨d, hd, by rw [sext, e1],
          by rw [other _ u hj2 hu a ha, other _ b hj hb d hd, e2]⟩
  · intro b hb a ha
    have gz := get 0 b hb
    clear hb
    rcases gz with ⟨hj, rfl⟩ | ⟨hj, hb⟩
    · subst hj
      rw [sext]
      exact g.base t ht a (ens' a ha)
    · rw [sext]
      exact g.base b hb a ha
  · intro j k u w hjk hu hw
    have gz := get j u hu
    clear hu
    rcases gz with ⟨rfl, rfl⟩ | ⟨hj, hu⟩
    · have gz := get k w hw
      clear hw
      rcases gz with ⟨rfl, rfl⟩ | ⟨hk, hw⟩
      · exact absurd rfl hjk
      · have := g.disj _ k t w hjk ht hw
        exact ⟨fun a ha => this.1 a (ens' a ha), by rw [el]; exact this.2⟩
    · have gz := get k w hw
      clear hw
      rcases gz with ⟨rfl, rfl⟩ | ⟨hk, hw⟩
      · have := g.disj j _ u t hjk hu ht
        exact ⟨fun a ha hb => this.1 a ha (ens' a hb), by rw [el]; exact this.2⟩
      · exact g.disj j k u w hjk hu hw

/-- the top level goes -/
theorem Geo.take {h : SHeap N} {T : List (Lvl N)} (g : Geo h T) (k : Nat) : Geo h (T.take k) := by
  have get : ∀ (j : Nat) u, (T.take k)[j]? = some u → T[j]? = some u := by
    intro j u hu
    rw [List.getElem?_take] at hu
    split at hu
    · exact hu
    · cases hu
  exact ⟨fun i t ht => g.lvl i t (get i t ht),
    fun i b u hb hu => g.downs i b u (get _ _ hb) (get _ _ hu), fun b hb => g.base b (get _ _ hb),
    fun i j t u hij ht hu => g.disj i j t u hij (get _ _ ht) (get _ _ hu)⟩

/-- a new top level with the sentinel alone -/
theorem Geo.push {h h' : SHeap N} {T : List (Lvl N)} {k : Nat} {t : Lvl N} {l n d : Addr}
    {as : List Addr} (g : Geo h T) (hk : T.length = k + 1) (ht : T[k]? = some t)
    (o : LvlOk h' ⟨l, [n], []⟩) (f : Frame h h' (fun _ => False) (fun _ => False))
    (hn : h.nNodes ≤ n) (hl : h.nLists ≤ l) (ed : t.ns = d :: as)
    (hdn : (h'.node n).ext = some d) (hdv : (h'.node n).data = some ⊥) :
    Geo h' (T ++ [⟨l, [n], []⟩]) := by
  have g' := g.frame f (fun _ _ _ _ _ e => e) (fun _ _ _ e => e)
  have get : ∀ (j : Nat) u, (T ++ [(⟨l, [n], []⟩ : Lvl N)])[j]? = some u →
      (j = k + 1 ∧ u = ⟨l, [n], []⟩) ∨ (j ≤ k ∧ T[j]? = some u) := by
    intro j u hu
    by_cases hj : j < T.length
    · rw [List.getElem?_append_left hj] at hu
      exact Or.inr ⟨by omega, hu⟩
    · by_cases hj2 : j = T.length
      · subst hj2
        rw [List.getElem?_concat_length] at hu
        exact Or.inl ⟨hk, (Option.some.inj hu).symm⟩
      · rw [List.getElem?_eq_none (by simp; omega)] at hu
        cases hu
  have fresh : ∀ (j : Nat) u, T[j]? = some u → n ∉ u.ns ∧ u.l ≠ l := by
    intro j u hu
    have r := (g.lvl j u hu).1
    exact ⟨fun hn' => by have := r.bound n hn'; omega, fun e => by have := r.lbound; omega⟩
  refine ⟨?_, ?_, ?_, ?_⟩
  · intro j u hu
    have gz := get j u hu
    clear hu
    rcases gz with ⟨rfl, rfl⟩ | ⟨hj, hu⟩
    · exact o
    · exact g'.lvl j u hu
  · intro j b u hb hu a ha
    have gz := get j b hb
    clear hb
    rcases gz with ⟨rfl, rfl⟩ | ⟨hj, hb⟩
    · have gz := get _ u hu
      clear hu
      rcases gz with ⟨hc, _⟩ | ⟨hj2, hu⟩ <;> omega
    · have gz := get _ u hu
      clear hu
      rcases gz with ⟨hc, rfl⟩ | ⟨hj2, hu⟩
      · have : j = k := by omega
        subst this
        rw [ht] at hb
        cases hb
        rw [List.mem_singleton] at ha
        subst ha
        refine ⟨d, by rw [ed]; simp, hdn, ?_⟩
        have hd := (g'.lvl j t ht).1.data
        rw [ed] at hd
        rw [hdv]
        simpa using (List.cons.inj hd).1
      · exact g'.downs j b u hb hu a ha
  · intro b hb a ha
    have gz := get 0 b hb
    clear hb
    rcases gz with ⟨hj, _⟩ | ⟨hj, hb⟩
    · omega
    · exact g'.base b hb a ha
  · intro i j u w hij hu hw
    have gz := get i u hu
    clear hu
    rcases gz with ⟨rfl, rfl⟩ | ⟨hj, hu⟩
    · have gz := get j w hw
      clear hw
      rcases gz with ⟨rfl, rfl⟩ | ⟨hk, hw⟩
      · exact absurd rfl hij
      · have := fresh j w hw
        exact ⟨fun a ha => by rw [List.mem_singleton.1 ha]; exact this.1, this.2.symm⟩
    · have gz := get j w hw
      clear hw
      rcases gz with ⟨rfl, rfl⟩ | ⟨hk, hw⟩
      · have := fresh i u hu
        exact ⟨fun a ha hb => this.1 (by rw [← List.mem_singleton.1 hb]; exact ha), this.2⟩
      · exact g.disj i j u w hij hu hw

end Extra
