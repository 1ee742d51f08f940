import Verif.Trees.TrieIteration
import Verif.Trees.TreeIterationSpec
import Verif.Trees.TrieRefine
import Verif.Trees.RadixRefine

/-!
# Iterating over a trie that changes meanwhile: helper lemmas for C115
-/

namespace Extra

/-- a string leads to a node -/
def Spelt (t : Trie) (p : Word) : Prop := ∃ v, NodeAt t.root p v

/-- a trie whose count is right, and whose nodes and data are related by `R` -/
structure Tidy (R : Word → Word → Prop) (t : Trie) : Prop where
  ok : t.root.kids.Ok
  count : t.count = t.root.size
  data : ∀ p v, p ≠ [] → NodeAt t.root p v → R p v.data

theorem at_of_spelt {t : Trie} (h : t.root.kids.Ok) {p : Word} (hp : Spelt t p) :
    ∃ v, t.root.at p = some v ∧ NodeAt t.root p v := by
  obtain ⟨v, r⟩ := hp
  exact ⟨v, r.at h, r⟩

theorem Kids.mem_toList_child {ks : Kids} (h : ks.Ok) {u : TNode} (hu : u ∈ ks.toList) : ∃ c, ks.child c = some u := by
  induction ks with
  | nil => cases hu
  | cons k d b ks rest ih1 ih2 =>
    obtain ⟨h1, h2, h3, h4⟩ := h
    simp only [Kids.toList, List.mem_cons] at hu
    rcases hu with rfl | hu
    · exact ⟨k, by simp [Kids.child]⟩
    · obtain ⟨c, hc⟩ := ih2 h4 hu
      refine ⟨c, ?_⟩
      rw [Kids.child, if_neg]
      · exact hc
      · rintro rfl; rw [h2] at hc; cases hc

theorem Kids.child_mem_toList {c : Char} {u : TNode} : ∀ {ks : Kids}, ks.child c = some u → u ∈ ks.toList
  | .nil, h => by cases h
  | .cons k d b ks rest, h => by
    rw [Kids.child] at h
    split at h
    · cases h; simp [Kids.toList]
    · simp only [Kids.toList, List.mem_cons]
      exact .inr (Kids.child_mem_toList h)

theorem Kids.toList_data_nodup : ∀ {ks : Kids}, ks.Ok → (ks.toList.map TNode.data).Nodup
  | .nil, _ => List.nodup_nil
  | .cons k d b ks rest, ⟨h1, h2, h3, h4⟩ => by
    simp only [Kids.toList, List.map_cons, List.nodup_cons]
    refine ⟨?_, Kids.toList_data_nodup h4⟩
    intro hm
    obtain ⟨u, hu, e⟩ := List.mem_map.1 hm
    obtain ⟨c, hc⟩ := Kids.mem_toList_child h4 hu
    have := (h4.child hc).1
    rw [e] at this
    rw [h1] at this
    cases this
    rw [h2] at hc; cases hc

/-- the node below a node on the way to a longer string -/
theorem NodeAt.next {t u v : TNode} (h : t.kids.Ok) {a p : Word} (ra : NodeAt t a u) (rp : NodeAt t p v) (hap : a <+: p)
    (hne : a ≠ p) : ∃ w ∈ u.kids.toList, a ++ w.data <+: p := by
  obtain ⟨s, rfl⟩ := hap
  have hs : s ≠ [] := by rintro rfl; simp at hne
  have h1 := (ra.strs h (q := s) (b := v.word)).1 ((mem_strs h).2 ⟨v, rp, rfl⟩)
  cases s with
  | nil => exact absurd rfl hs
  | cons c s =>
    obtain ⟨w, q, hw, e, _⟩ := (TNode.strs_cons (ra.ok h)).1 h1
    refine ⟨w, Kids.child_mem_toList hw, ?_⟩
    rw [e, ← List.append_assoc]
    exact List.prefix_append _ _

/-- no node lies between a node and a child of it -/
theorem NodeAt.none_between {t u v w : TNode} (h : t.kids.Ok) {a b : Word} (ra : NodeAt t a u) (rb : NodeAt t b v)
    (hw : w ∈ u.kids.toList) (hab : a <+: b) (hne : a ≠ b) (hb : b <+: a ++ w.data) : b = a ++ w.data := by
  obtain ⟨w', hw', hp⟩ := ra.next h rb hab hne
  have e : w' = w := by
    obtain ⟨c, hc⟩ := Kids.mem_toList_child (ra.ok h) hw
    obtain ⟨c', hc'⟩ := Kids.mem_toList_child (ra.ok h) hw'
    have h1 : w'.data <+: w.data := (List.prefix_append_right_inj a).1 (hp.trans hb)
    have d1 := ((ra.ok h).child hc).1
    have d2 := ((ra.ok h).child hc').1
    obtain ⟨s, es⟩ := h1
    rw [← es, head_append d2] at d1
    cases d1
    rw [hc] at hc'; cases hc'; rfl
  subst e
  exact List.IsPrefix.eq_of_length hb (Nat.le_antisymm hb.length_le hp.length_le)

/-- the nodes still to come, `U`, after the nodes `D` -/
structure Mid (R : Word → Word → Prop) (K : Word → Prop) (t : Trie) (D : List Word) (U : List TrRef) : Prop where
  nodup : (D ++ U.map TrRef.path).Nodup
  ne : ∀ r ∈ U, r.path ≠ []
  live : ∀ r ∈ U, r.gone = none → Spelt t r.path
  dead : ∀ r ∈ U, ∀ d, r.gone = some d → R r.path d
  sep : ∀ r ∈ U, r.gone = none → ∀ x ∈ D ++ U.map TrRef.path, r.path <+: x → x = r.path
  all : ∀ p, K p → p ∈ D ∨ ∃ r ∈ U, r.gone = none ∧ r.path <+: p

variable {R : Word → Word → Prop} {K : Word → Prop} {t t' : Trie} {D : List Word} {U : List TrRef}

theorem children_of {a : TrRef} {u : TNode} (h : t.root.kids.Ok) (hg : a.gone = none) (ra : NodeAt t.root a.path u) :
    a.children t = u.kids.toList.map fun u => ⟨a.path ++ u.data, none⟩ := by
  rw [TrRef.children, hg]
  simp only [ra.at h]

theorem child_spelt {u w : TNode} {a : Word} (h : t.root.kids.Ok) (ra : NodeAt t.root a u) (hw : w ∈ u.kids.toList) :
    NodeAt t.root (a ++ w.data) w ∧ w.data ≠ [] := by
  obtain ⟨c, hc⟩ := Kids.mem_toList_child (ra.ok h) hw
  exact ⟨ra.trans (.child hc), data_ne ((ra.ok h).child hc).1⟩

/-- the children of a node, after nodes of which none lies below it -/
theorem Mid.children {a : Word} {u : TNode} {U D : List _} (hT : Tidy R t) (ra : NodeAt t.root a u)
    (hK : ∀ p, K p → Spelt t p)
    (nodup : (D ++ U.map TrRef.path).Nodup) (ne : ∀ r ∈ U, r.path ≠ [])
    (live : ∀ r ∈ U, r.gone = none → Spelt t r.path) (dead : ∀ r ∈ U, ∀ d, r.gone = some d → R r.path d)
    (sep : ∀ r ∈ U, r.gone = none → ∀ x ∈ D ++ U.map TrRef.path, r.path <+: x → x = r.path)
    (sepU : ∀ r ∈ U, r.gone = none → ¬ r.path <+: a)
    (sepa : ∀ x ∈ D ++ U.map TrRef.path, a <+: x → x = a)
    (all : ∀ p, K p → p ∈ D ∨ (a <+: p ∧ a ≠ p) ∨ ∃ r ∈ U, r.gone = none ∧ r.path <+: p) :
    Mid R K t D (U ++ u.kids.toList.map fun w => ⟨a ++ w.data, none⟩) := by
  have hin : ∀ r ∈ u.kids.toList.map (fun w => (⟨a ++ w.data, none⟩ : TrRef)),
      ∃ w ∈ u.kids.toList, r = ⟨a ++ w.data, none⟩ := by
    intro r hr; obtain ⟨w, hw, rfl⟩ := List.mem_map.1 hr; exact ⟨w, hw, rfl⟩
  have hpaths : (U ++ u.kids.toList.map fun w => (⟨a ++ w.data, none⟩ : TrRef)).map TrRef.path =
      U.map TrRef.path ++ u.kids.toList.map fun w => a ++ w.data := by simp
  have hnew : ∀ w ∈ u.kids.toList, a ++ w.data ∉ D ++ U.map TrRef.path := by
    intro w hw hm
    have := sepa _ hm (List.prefix_append _ _)
    have h2 := (child_spelt hT.ok ra hw).2
    simp at this; exact h2 this
  refine ⟨?_, ?_, ?_, ?_, ?_, ?_⟩
  · rw [hpaths, ← List.append_assoc]
    refine List.nodup_append.2 ⟨nodup, ?_, ?_⟩
    · have := (Kids.toList_data_nodup (ra.ok hT.ok)).map (f := fun d => a ++ d) (fun x y e => by simpa using e)
      simpa [List.map_map, Function.comp_def] using this
    · intro x hx y hy e
      obtain ⟨w, hw, rfl⟩ := List.mem_map.1 hy
      exact hnew w hw (e ▸ hx)
  · intro r hr
    rcases List.mem_append.1 hr with hr | hr
    · exact ne r hr
    · obtain ⟨w, hw, rfl⟩ := hin r hr
      have h2 := (child_spelt hT.ok ra hw).2
      simp [h2]
  · intro r hr hg
    rcases List.mem_append.1 hr with hr | hr
    · exact live r hr hg
    · obtain ⟨w, hw, rfl⟩ := hin r hr
      exact ⟨w, (child_spelt hT.ok ra hw).1⟩
  · intro r hr d hd
    rcases List.mem_append.1 hr with hr | hr
    · exact dead r hr d hd
    · obtain ⟨w, hw, rfl⟩ := hin r hr
      cases hd
  · intro r hr hg x hx hrx
    rw [hpaths, ← List.append_assoc] at hx
    rcases List.mem_append.1 hr with hr | hr
    · rcases List.mem_append.1 hx with hx | hx
      · exact sep r hr hg x hx hrx
      · obtain ⟨w, hw, rfl⟩ := List.mem_map.1 hx
        exfalso
        obtain ⟨v, rv⟩ := live r hr hg
        rcases List.prefix_or_prefix_of_prefix hrx (List.prefix_append a w.data) with h1 | h1
        · exact sepU r hr hg h1
        · by_cases e : a = r.path
          · exact sepU r hr hg (e ▸ List.prefix_refl _)
          · have := ra.none_between hT.ok rv hw h1 e hrx
            exact hnew w hw (this ▸ List.mem_append_right _ (List.mem_map_of_mem hr))
    · obtain ⟨w, hw, rfl⟩ := hin r hr
      rcases List.mem_append.1 hx with hx | hx
      · exfalso
        have h1 : a <+: x := (List.prefix_append _ _).trans hrx
        have := sepa x hx h1
        subst this
        have := hrx.length_le
        have h2 := List.length_pos_of_ne_nil (child_spelt hT.ok ra hw).2
        simp at this; omega
      · obtain ⟨w', hw', rfl⟩ := List.mem_map.1 hx
        have h2 := (child_spelt hT.ok ra hw).2
        exact (ra.none_between hT.ok (child_spelt hT.ok ra hw).1 hw' (List.prefix_append _ _) (by simpa using h2) hrx).symm
  · intro p hp
    rcases all p hp with h1 | ⟨h1, h2⟩ | ⟨r, hr, h1⟩
    · exact .inl h1
    · obtain ⟨v, rv⟩ := hK p hp
      obtain ⟨w, hw, h3⟩ := ra.next hT.ok rv h1 h2
      exact .inr ⟨_, List.mem_append_right _ (List.mem_map_of_mem hw), rfl, h3⟩
    · exact .inr ⟨r, List.mem_append_left _ hr, h1⟩

/-- the start -/
theorem Mid.start (hT : Tidy R t) (hK : ∀ p, K p → Spelt t p ∧ p ≠ []) :
    Mid R K t [] (TrRef.children t ⟨[], none⟩) := by
  have := Mid.children (U := []) (D := []) (a := []) (u := t.root) (K := K) hT (.here _) (fun p hp => (hK p hp).1)
    (by simp) (by simp) (by simp) (by simp) (by simp) (by simp) (by simp)
    (fun p hp => .inr (.inl ⟨List.nil_prefix, fun e => (hK p hp).2 e.symm⟩))
  rw [children_of (u := t.root) hT.ok rfl (.here _)]
  simpa using this

/-- one node has been given, and its children are read -/
theorem Mid.step {a : TrRef} (I : Mid R K t D (a :: U)) (hT : Tidy R t) (hK : ∀ p, K p → Spelt t p) :
    Mid R K t (D ++ [a.path]) (U ++ a.children t) := by
  have hperm : D ++ [a.path] ++ U.map TrRef.path = D ++ (a :: U).map TrRef.path := by simp
  cases hg : a.gone with
  | some d =>
    have hc : a.children t = [] := by rw [TrRef.children, hg]
    rw [hc, List.append_nil]
    refine ⟨by rw [hperm]; exact I.nodup, fun r hr => I.ne r (by simp [hr]), fun r hr => I.live r (by simp [hr]),
      fun r hr => I.dead r (by simp [hr]), fun r hr h1 x hx => I.sep r (by simp [hr]) h1 x (by rwa [← hperm]), ?_⟩
    intro p hp
    rcases I.all p hp with h1 | ⟨r, hr, h1, h2⟩
    · exact .inl (by simp [h1])
    · rcases List.mem_cons.1 hr with rfl | hr
      · rw [hg] at h1; cases h1
      · exact .inr ⟨r, hr, h1, h2⟩
  | none =>
    obtain ⟨u, ra⟩ := I.live a (by simp) hg
    rw [children_of hT.ok hg ra]
    refine Mid.children hT ra hK (by rw [hperm]; exact I.nodup) (fun r hr => I.ne r (by simp [hr]))
      (fun r hr => I.live r (by simp [hr])) (fun r hr => I.dead r (by simp [hr]))
      (fun r hr h1 x hx => I.sep r (by simp [hr]) h1 x (by rwa [← hperm])) ?_ ?_ ?_
    · intro r hr h1 h2
      have h3 := I.sep r (by simp [hr]) h1 a.path (by simp) h2
      have := I.nodup
      rw [List.nodup_append] at this
      have h4 := this.2.1
      rw [List.map_cons, List.nodup_cons] at h4
      exact h4.1 (h3 ▸ List.mem_map_of_mem hr)
    · intro x hx h1
      exact I.sep a (by simp) hg x (by rwa [← hperm]) h1
    · intro p hp
      rcases I.all p hp with h1 | ⟨r, hr, h1, h2⟩
      · exact .inl (by simp [h1])
      · rcases List.mem_cons.1 hr with rfl | hr
        · by_cases e : r.path = p
          · exact .inl (by simp [e])
          · exact .inr (.inl ⟨h2, e⟩)
        · exact .inr (.inr ⟨r, hr, h1, h2⟩)

/-- nodes above a node that stays are not removed -/
def Retains (t t' : Trie) : Prop := ∀ q p, q <+: p → Spelt t q → Spelt t p → Spelt t' p → Spelt t' q

theorem after_path (r : TrRef) : (r.after t t').path = r.path := by
  unfold TrRef.after; split <;> rfl

theorem NodeAt.of_at : ∀ (n : Nat) {t v : TNode} {p : Word}, p.length ≤ n → t.kids.Ok → t.at p = some v → NodeAt t p v
  | _, t, v, [], _, _, e => by cases e; exact .here t
  | 0, _, _, _ :: _, hn, _, _ => by simp at hn
  | n + 1, t, v, c :: p, hn, h, e => by
    rw [TNode.at, Kids.at_cons h] at e
    cases hu : t.kids.child c with
    | none => rw [hu] at e; cases e
    | some u =>
      rw [hu] at e
      simp only at e
      split at e
      · rename_i e1; cases e; rw [e1]; exact .child hu
      · rename_i hne
        split at e
        · rename_i hp
          obtain ⟨s, es⟩ := hp
          have hd := List.length_pos_of_ne_nil (data_ne (h.child hu).1)
          rw [← es, List.drop_left] at e
          rw [← es]
          refine .step hu (NodeAt.of_at n ?_ (h.child hu).2 ?_)
          · have := congrArg List.length es
            simp only [List.length_append, List.length_cons] at this hn
            omega
          · cases s with
            | nil => exact absurd (by simpa using es.symm) hne
            | cons a s => exact e
        · cases e

theorem spelt_iff (h : t.root.kids.Ok) {p : Word} : Spelt t p ↔ ∃ v, t.root.at p = some v :=
  ⟨fun ⟨v, r⟩ => ⟨v, r.at h⟩, fun ⟨v, e⟩ => ⟨v, .of_at _ le_rfl h e⟩⟩

theorem after_none {r : TrRef} (hT : t.root.kids.Ok) (hT' : t'.root.kids.Ok) (h : (r.after t t').gone = none) :
    r.gone = none ∧ (Spelt t r.path → Spelt t' r.path) := by
  unfold TrRef.after at h
  split at h
  · cases h
  · rename_i x hx
    refine ⟨h, fun hs => ?_⟩
    obtain ⟨v, hv⟩ := (spelt_iff hT).1 hs
    cases h2 : t'.root.at r.path with
    | none => exact absurd h2 (hx v h hv)
    | some v' => exact (spelt_iff hT').2 ⟨v', h2⟩

theorem none_after {r : TrRef} (hT' : t'.root.kids.Ok) (hg : r.gone = none) (hs : Spelt t' r.path) :
    (r.after t t').gone = none := by
  obtain ⟨v, hv⟩ := (spelt_iff hT').1 hs
  unfold TrRef.after
  split
  · rename_i h; rw [hv] at h; cases h
  · exact hg

theorem after_some {r : TrRef} {d : Word} (h : (r.after t t').gone = some d) :
    r.gone = some d ∨ (r.gone = none ∧ ∃ v, t.root.at r.path = some v ∧ v.data = d) := by
  unfold TrRef.after at h
  split at h
  · rename_i n hg hn _
    cases h
    exact .inr ⟨hg, n, hn, rfl⟩
  · exact .inl h

/-- a call on the trie -/
theorem Mid.call (I : Mid R K t D U) (hT : Tidy R t) (hT' : Tidy R t') (hr : Retains t t')
    (hK : ∀ p, K p → Spelt t p ∧ Spelt t' p) : Mid R K t' D (U.map (TrRef.after t t')) := by
  have hp : (U.map (TrRef.after t t')).map TrRef.path = U.map TrRef.path := by
    rw [List.map_map]; exact List.map_congr_left fun r _ => after_path r
  refine ⟨by rw [hp]; exact I.nodup, ?_, ?_, ?_, ?_, ?_⟩
  · intro r hr
    obtain ⟨r, h, rfl⟩ := List.mem_map.1 hr
    rw [after_path]; exact I.ne r h
  · intro r hr hg
    obtain ⟨r, h, rfl⟩ := List.mem_map.1 hr
    obtain ⟨h1, h2⟩ := after_none hT.ok hT'.ok hg
    rw [after_path]; exact h2 (I.live r h h1)
  · intro r hr d hd
    obtain ⟨r, h, rfl⟩ := List.mem_map.1 hr
    rw [after_path]
    rcases after_some hd with h1 | ⟨_, v, hv, rfl⟩
    · exact I.dead r h d h1
    · exact hT.data _ _ (I.ne r h) (.of_at _ le_rfl hT.ok hv)
  · intro r hr hg x hx
    obtain ⟨r, h, rfl⟩ := List.mem_map.1 hr
    rw [after_path]; rw [hp] at hx
    exact I.sep r h (after_none hT.ok hT'.ok hg).1 x hx
  · intro p hkp
    rcases I.all p hkp with h1 | ⟨r, h, hg, h2⟩
    · exact .inl h1
    · refine .inr ⟨_, List.mem_map_of_mem h, none_after hT'.ok hg ?_, by rw [after_path]; exact h2⟩
      exact hr r.path p h2 (I.live r h hg) (hK p hkp).1 (hK p hkp).2

/-- a generator that has given the nodes `P` -/
def Held (R : Word → Word → Prop) (K : Word → Prop) (t : Trie) (P : List Word) : TrIter → Prop
  | .fresh => P = []
  | .susp a rest next => ∃ D, P = D ++ [a.path] ∧ Mid R K t D (a :: (rest ++ next))
  | .over => P.Nodup ∧ ∀ p, K p → p ∈ P

theorem Held.nodup {P : List Word} : ∀ {it : TrIter}, Held R K t P it → P.Nodup
  | .fresh, h => by rw [h]; exact List.nodup_nil
  | .susp a rest next, ⟨D, h, I⟩ => by
    have := I.nodup
    rw [List.map_cons, ← List.singleton_append, ← List.append_assoc, ← h] at this
    exact (List.nodup_append.1 this).1
  | .over, h => h.1

theorem Mid.yield {P : List Word} {b : TrRef} {rest next : List TrRef} (I : Mid R K t P (b :: (rest ++ next)))
    (hT : Tidy R t) : ∃ v p, trYield t b rest next = (.item v, .susp b rest next) ∧ R p v ∧
      Held R K t (P ++ [p]) (.susp b rest next) := by
  cases hg : b.gone with
  | some d =>
    refine ⟨d, b.path, ?_, I.dead b (by simp) d hg, P, rfl, I⟩
    simp only [trYield, hg]
  | none =>
    obtain ⟨v, r⟩ := I.live b (by simp) hg
    refine ⟨v.data, b.path, ?_, hT.data _ _ (I.ne b (by simp)) r, P, rfl, I⟩
    simp only [trYield, hg, r.at hT.ok]

theorem Mid.finish {P : List Word} (I : Mid R K t P []) : ∀ p, K p → p ∈ P := by
  intro p hp
  rcases I.all p hp with h | ⟨r, hr, _⟩
  · exact h
  · cases hr

theorem Held.next {P : List Word} {it : TrIter} (H : Held R K t P it) (hT : Tidy R t)
    (hK : ∀ p, K p → Spelt t p ∧ p ≠ []) :
    (∃ v p, (trNext t it).1 = .item v ∧ R p v ∧ Held R K t (P ++ [p]) (trNext t it).2) ∨
    ((trNext t it).1 = .stop ∧ Held R K t P (trNext t it).2 ∧ ∀ p, K p → p ∈ P) := by
  cases it with
  | over => exact .inr ⟨rfl, H, H.2⟩
  | fresh =>
    cases (show P = [] from H)
    rw [trNext]
    split
    · rename_i he
      have hk : ∀ p, ¬ K p := by
        intro p hp
        obtain ⟨⟨v, r⟩, hne⟩ := hK p hp
        have h1 := (mem_strs hT.ok).2 ⟨v, r, rfl⟩
        have h2 : t.count = 1 := by simpa [Trie.isEmpty] using he
        rw [hT.count] at h2
        have h3 : t.root.size = 1 := by exact_mod_cast h2
        rw [TNode.size, TNode.strs, List.length_cons] at h3
        have h4 : t.root.kids.strs = [] := List.length_eq_zero_iff.1 (by omega)
        rw [TNode.strs, h4] at h1
        simp at h1
        exact hne h1.1
      exact .inr ⟨rfl, ⟨List.nodup_nil, fun p hp => absurd hp (hk p)⟩, fun p hp => absurd hp (hk p)⟩
    · have I := Mid.start (K := K) hT hK
      cases hc : TrRef.children t ⟨[], none⟩ with
      | nil =>
        rw [hc] at I
        exact .inr ⟨rfl, ⟨List.nodup_nil, I.finish⟩, I.finish⟩
      | cons b rest =>
        rw [hc] at I
        obtain ⟨v, p, e, h1, h2⟩ := Mid.yield (rest := rest) (next := []) (by simpa using I) hT
        simp only
        rw [e]
        exact .inl ⟨v, p, rfl, h1, h2⟩
  | susp a rest next =>
    obtain ⟨D, rfl, I⟩ := H
    have J := I.step hT (fun p hp => (hK p hp).1)
    cases rest with
    | cons b rest =>
      rw [trNext]
      obtain ⟨v, p, e, h1, h2⟩ := Mid.yield (rest := rest) (next := next ++ a.children t)
        (by simpa using J) hT
      rw [e]
      exact .inl ⟨v, p, rfl, h1, h2⟩
    | nil =>
      rw [trNext]
      cases hc : next ++ a.children t with
      | nil =>
        have J' : Mid R K t (D ++ [a.path]) [] := by simpa [hc] using J
        refine .inr ⟨rfl, ⟨?_, J'.finish⟩, J'.finish⟩
        simpa using J'.nodup
      | cons b rest =>
        have J' : Mid R K t (D ++ [a.path]) (b :: rest) := by simpa [hc] using J
        obtain ⟨v, p, e, h1, h2⟩ := Mid.yield (rest := rest) (next := []) (by simpa using J') hT
        simp only
        rw [e]
        exact .inl ⟨v, p, rfl, h1, h2⟩

theorem Held.call {P : List Word} : ∀ {it : TrIter}, Held R K t P it → Tidy R t → Tidy R t' → Retains t t' →
    (∀ p, K p → Spelt t p ∧ Spelt t' p) → Held R K t' P (it.after t t')
  | .fresh, h, _, _, _, _ => h
  | .over, h, _, _, _, _ => h
  | .susp a rest next, ⟨D, h, I⟩, hT, hT', hr, hK =>
    ⟨D, by rw [after_path]; exact h, by simpa using I.call hT hT' hr hK⟩

theorem trExecs_cons (radix : Bool) (op : TrOp) (ops : List TrOp) (t : Trie) :
    (trExecs radix (op :: ops) t).2 = (trExecs radix ops (trExec radix t op).2).2 := rfl

theorem trExecs_append (radix : Bool) : ∀ (ops ops' : List TrOp) (t : Trie),
    (trExecs radix (ops ++ ops') t).2 = (trExecs radix ops' (trExecs radix ops t).2).2
  | [], _, _ => rfl
  | op :: ops, ops', t => by
    rw [List.cons_append, trExecs_cons, trExecs_append radix ops ops', trExecs_cons]

theorem acts_held (radix : Bool) (hk : ∀ p, K p → p ≠ []) : ∀ (as : List (TreeAct TrOp)) (t : Trie) (it : TrIter)
    (P : List Word), Held R K t P it → .call .clear ∉ as →
    (∀ bs, bs <+: as → Tidy R (trExecs radix (callsOf bs) t).2 ∧
      ∀ p, K p → Spelt (trExecs radix (callsOf bs) t).2 p) →
    (∀ bs op, bs ++ [.call op] <+: as →
      Retains (trExecs radix (callsOf bs) t).2 (trExec radix (trExecs radix (callsOf bs) t).2 op).2) →
    ∃ Q, (P ++ Q).Nodup ∧ List.Forall₂ R Q (TreeStep.values (trActs radix as ⟨t, it, none⟩)) ∧
      (∀ e, .raised e ∉ trActs radix as ⟨t, it, none⟩) ∧
      (.stop ∈ trActs radix as ⟨t, it, none⟩ → ∀ p, K p → p ∈ P ++ Q)
  | [], t, it, P, H, _, _, _ => ⟨[], by simpa using H.nodup, .nil, by simp [trActs], by simp [trActs]⟩
  | .next :: as, t, it, P, H, hc, hT, hr => by
    obtain ⟨h0, h1⟩ := hT [] List.nil_prefix
    have hT' : ∀ bs, bs <+: as → _ := fun bs hb => hT (.next :: bs) (List.cons_prefix_cons.2 ⟨rfl, hb⟩)
    have hr' : ∀ bs op, bs ++ [.call op] <+: as → _ :=
      fun bs op hb => hr (.next :: bs) op (List.cons_prefix_cons.2 ⟨rfl, hb⟩)
    have hc' : .call .clear ∉ as := fun h => hc (List.mem_cons_of_mem _ h)
    have e : trActs radix (.next :: as) ⟨t, it, none⟩ =
      (trNext t it).1 :: trActs radix as ⟨t, (trNext t it).2, none⟩ := rfl
    rw [e]
    rcases H.next h0 (fun p hp => ⟨h1 p hp, hk p hp⟩) with ⟨v, p, e1, hR, H'⟩ | ⟨e1, H', hall⟩
    · obtain ⟨Q, q1, q2, q3, q4⟩ := acts_held radix hk as t _ (P ++ [p]) H' hc' hT' hr'
      refine ⟨p :: Q, by simpa using q1, ?_, ?_, ?_⟩
      · rw [e1]; exact .cons hR q2
      · intro e he
        rw [e1] at he
        rcases List.mem_cons.1 he with he | he
        · cases he
        · exact q3 e he
      · intro hs p' hp'
        rw [e1] at hs
        rcases List.mem_cons.1 hs with hs | hs
        · cases hs
        · simpa using q4 hs p' hp'
    · obtain ⟨Q, q1, q2, q3, q4⟩ := acts_held radix hk as t _ P H' hc' hT' hr'
      refine ⟨Q, q1, ?_, ?_, ?_⟩
      · rw [e1]; exact q2
      · intro e he
        rw [e1] at he
        rcases List.mem_cons.1 he with he | he
        · cases he
        · exact q3 e he
      · intro _ p hp
        exact List.mem_append_left _ (hall p hp)
  | .call op :: as, t, it, P, H, hc, hT, hr => by
    have hT' : ∀ bs, bs <+: as → _ := fun bs hb => hT (.call op :: bs) (List.cons_prefix_cons.2 ⟨rfl, hb⟩)
    have hr' : ∀ bs op', bs ++ [.call op'] <+: as → _ :=
      fun bs op' hb => hr (.call op :: bs) op' (List.cons_prefix_cons.2 ⟨rfl, hb⟩)
    have hc' : .call .clear ∉ as := fun h => hc (List.mem_cons_of_mem _ h)
    have hop : op ≠ .clear := fun h => hc (by simp [h])
    have e : trActs radix (.call op :: as) ⟨t, it, none⟩ =
        trActs radix as ⟨(trExec radix t op).2, it.after t (trExec radix t op).2, none⟩ := by
      cases op <;> first | rfl | exact absurd rfl hop
    rw [e]
    have h0 := hT [] List.nil_prefix
    have h1 := hT' [] List.nil_prefix
    exact acts_held radix hk as _ _ P
      (H.call h0.1 h1.1 (hr [] op (by simp)) (fun p hp => ⟨h0.2 p hp, h1.2 p hp⟩)) hc' hT' hr'

end Extra
