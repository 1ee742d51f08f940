import Verif.Trees.DrawLabels
import Verif.Trees.DrawBinProofs
import Verif.Trees.BinHeapProofs

/-!
# Helper lemmas for the drawings of heaps, red-black trees and treaps
-/

namespace Extra
variable {N P V W : Type}

/-- the index in the array of the node at a path — left is `2 * i + 1`, right `2 * i + 2` -/
def heapPos : Nat → List Bool → Nat
  | i, [] => i
  | i, b :: p => heapPos (if b then 2 * i + 2 else 2 * i + 1) p

theorem heapPos_le : ∀ (p : List Bool) (i : Nat), i ≤ heapPos i p
  | [], _ => Nat.le_refl _
  | b :: p, i => by
    rw [heapPos]
    exact Nat.le_trans (by split <;> omega) (heapPos_le p _)

/-- every index is that of a path -/
theorem heapPos_surj (k : Nat) : ∃ p, heapPos 0 p = k := by
  have app : ∀ (p : List Bool) (i : Nat) (b : Bool),
      heapPos i (p ++ [b]) = if b then 2 * heapPos i p + 2 else 2 * heapPos i p + 1 := by
    intro p
    induction p with
    | nil => intro i b; rfl
    | cons c p ih => intro i b; exact ih _ b
  induction k using Nat.strong_induction_on with
  | _ k ih =>
    by_cases h0 : k = 0
    · exact ⟨[], h0.symm⟩
    · obtain ⟨p, hp⟩ := ih ((k - 1) / 2) (by omega)
      by_cases h2 : k % 2 = 0
      · exact ⟨p ++ [true], by rw [app, if_pos rfl, hp]; omega⟩
      · exact ⟨p ++ [false], by rw [app, if_neg (by simp), hp]; omega⟩

section
variable [LinearOrder N] [BoundedOrder N]

theorem heapSub_spec (xs : List N) : ∀ (fuel k : Nat), k < xs.length → xs.length ≤ fuel + k →
    ∃ t, heapSub (canon xs xs.length) fuel k = .ok t ∧ ∀ p, t.at p = xs[heapPos k p]?
  | 0, k, h, h' => by omega
  | fuel + 1, k, h, h' => by
    have hk : (canon xs xs.length)[k]? = some (canonNode xs xs.length k) := by simp [canon, h]
    have child : ∀ j, k < j →
        ∃ t, heapKid (heapSub (canon xs xs.length) fuel) (if j < xs.length then some j else none) = .ok t ∧
          ∀ p, t.at p = xs[heapPos j p]? := by
      intro j hj
      by_cases hlt : j < xs.length
      · obtain ⟨t, e, ht⟩ := heapSub_spec xs fuel j hlt (by omega)
        exact ⟨t, by rw [if_pos hlt]; exact e, ht⟩
      · refine ⟨.nil, by rw [if_neg hlt]; rfl, fun p => ?_⟩
        rw [BTree.nil_at, List.getElem?_eq_none (Nat.le_trans (by omega) (heapPos_le p j))]
    obtain ⟨l, el, hl⟩ := child (2 * k + 1) (by omega)
    obtain ⟨r, er, hr⟩ := child (2 * k + 2) (by omega)
    refine ⟨.node l (hv xs k) r, ?_, fun p => ?_⟩
    · rw [heapSub, hk]
      simp only [canonNode, el, er, bind, Except.bind]
    · match p with
      | [] => simp [heapPos, hv_eq h, h, BTree.at, BTree.sub, BTree.root?]
      | false :: p => exact hl p
      | true :: p => exact hr p

theorem bhRepr_spec (str : N → List Char) (xs : List N) :
    ∃ t : BTree N, bhRepr str xs = .ok (t.repr str) ∧ ∀ p, t.at p = xs[heapPos 0 p]? := by
  by_cases h : xs = []
  · subst h
    exact ⟨.nil, rfl, fun p => by rw [BTree.nil_at]; simp⟩
  · obtain ⟨t, e, ht⟩ := heapSub_spec xs xs.length 0 (List.length_pos_iff.mpr h) (by omega)
    refine ⟨t, ?_, ht⟩
    rw [bhRepr, if_neg (by simpa using h), transform_spec h]
    simp only [bind, Except.bind, e]

end

theorem BTree.labels_at (rep : V → List Char) : ∀ (t : BTree V) (p : List Bool),
    (t.labels rep).at p = (t.at p).map rep
  | .nil, p => by rw [BTree.labels, BTree.nil_at, BTree.nil_at]; rfl
  | .node l v r, [] => rfl
  | .node l v r, b :: p => by
    rw [BTree.labels, BTree.at_cons, BTree.at_cons]
    split
    · exact BTree.labels_at rep r p
    · exact BTree.labels_at rep l p

theorem BTree.labels_inj {rep : V → List Char} (h : Function.Injective rep) :
    ∀ {s t : BTree V}, s.labels rep = t.labels rep → s = t
  | .nil, .nil, _ => rfl
  | .nil, .node .., e => by cases e
  | .node .., .nil, e => by cases e
  | .node l v r, .node l' v' r', e => by
    simp only [BTree.labels, BTree.node.injEq] at e
    rw [BTree.labels_inj h e.1, h e.2.1, BTree.labels_inj h e.2.2]

/-! ## Numbers -/

theorem toDigits_inj : ∀ (n m : Nat), Nat.toDigits 10 n = Nat.toDigits 10 m → n = m := by
  intro n
  induction n using Nat.strong_induction_on with
  | _ n ih =>
    intro m h
    have digit : ∀ a, a < 10 → ∀ b, b < 10 → Nat.digitChar a = Nat.digitChar b → a = b := by decide
    rw [Nat.toDigits_eq_if (by decide), Nat.toDigits_eq_if (n := m) (by decide)] at h
    split at h <;> split at h
    · next h1 h2 => exact digit n h1 m h2 (by simpa using h)
    · next h1 h2 =>
      have := congrArg List.length h
      have := Nat.length_toDigits_pos (b := 10) (n := m / 10)
      simp at *
    · next h1 h2 =>
      have := congrArg List.length h
      have := Nat.length_toDigits_pos (b := 10) (n := n / 10)
      simp at *
    · next h1 h2 =>
      obtain ⟨h3, h4⟩ := List.append_inj' h rfl
      have e1 := ih (n / 10) (by omega) (m / 10) h3
      have e2 := digit (n % 10) (by omega) (m % 10) (by omega) (by simpa using h4)
      omega

theorem digits_not {n : Nat} {x : Char} (h : x.isDigit = false) : x ∉ Nat.toDigits 10 n := by
  intro hm
  have := Nat.isDigit_of_mem_toDigits (by decide) (by decide) hm
  rw [h] at this; cases this

theorem intStr_inj : Function.Injective intStr := by
  intro a b h
  cases a <;> cases b <;> rw [intStr, intStr] at h
  · rw [toDigits_inj _ _ h]
  · exact absurd (h ▸ List.mem_cons_self) (digits_not (by decide))
  · exact absurd (h ▸ List.mem_cons_self) (digits_not (by decide))
  · rw [Int.negSucc_inj]
    have := toDigits_inj _ _ (List.cons.inj h).2
    omega

/-- the letters of numbers -/
theorem mem_intStr {n : Int} {x : Char} (h : x ∈ intStr n) : x = '-' ∨ x.isDigit = true := by
  cases n <;> rw [intStr] at h
  · exact .inr (Nat.isDigit_of_mem_toDigits (by decide) (by decide) h)
  · rcases List.mem_cons.mp h with h | h
    · exact .inl h
    · exact .inr (Nat.isDigit_of_mem_toDigits (by decide) (by decide) h)

theorem intStr_ne (n : Int) : intStr n ≠ [] := by
  cases n <;> rw [intStr]
  · exact Nat.toDigits_ne_nil
  · simp

theorem mem_numStr {n : WithBot (WithTop Int)} {x : Char} (h : x ∈ numStr n) :
    x ∈ "-inf".toList ∨ x.isDigit = true := by
  match n, h with
  | none, h => exact .inl h
  | some none, h => exact .inl (List.mem_cons_of_mem _ h)
  | some (some n), h =>
    rcases mem_intStr h with h | h
    · subst h; exact .inl (by decide)
    · exact .inr h

theorem numStr_inj : Function.Injective numStr := by
  have key : ∀ n : Int, 'i' ∉ intStr n := fun n h => by
    rcases mem_intStr h with h | h <;> revert h <;> decide
  intro a b h
  match a, b, h with
  | none, none, _ => rfl
  | some none, some none, _ => rfl
  | none, some none, h => exact absurd h (by decide)
  | some none, none, h => exact absurd h (by decide)
  | none, some (some n), h => exact absurd (by rw [← show _ = intStr n from h]; decide) (key n)
  | some none, some (some n), h => exact absurd (by rw [← show _ = intStr n from h]; decide) (key n)
  | some (some n), none, h => exact absurd (by rw [show intStr n = _ from h]; decide) (key n)
  | some (some n), some none, h => exact absurd (by rw [show intStr n = _ from h]; decide) (key n)
  | some (some m), some (some n), h => rw [intStr_inj h]

/-- what is asked of `str`: numbers are printed without white space, `_` and `|`, and different numbers
are printed differently -/
structure GoodStr (str : N → List Char) : Prop where
  inj : Function.Injective str
  visible : ∀ n, Visible (str n)
  bar : ∀ n, '|' ∉ str n

theorem digit_visible {x : Char} (h : x.isDigit = true) : pySpace x = false ∧ x ≠ '_' ∧ x ≠ '|' := by
  refine ⟨?_, ?_, ?_⟩
  · have : 48 ≤ x.toNat ∧ x.toNat ≤ 57 := by
      simp only [Char.isDigit, Bool.and_eq_true, decide_eq_true_eq] at h
      exact ⟨UInt32.le_iff_toNat_le.mp h.1, UInt32.le_iff_toNat_le.mp h.2⟩
    simp only [pySpace, Bool.or_eq_false_iff, Bool.and_eq_false_iff, decide_eq_false_iff_not]
    omega
  · rintro rfl; exact absurd h (by decide)
  · rintro rfl; exact absurd h (by decide)

theorem numStr_good : GoodStr numStr := by
  refine ⟨numStr_inj, fun n => ⟨?_, fun x hx => ?_⟩, fun n h => ?_⟩
  · match n with
    | none => decide
    | some none => decide
    | some (some n) => exact intStr_ne n
  · rcases mem_numStr hx with h | h
    · clear hx; revert x; decide
    · exact ⟨(digit_visible h).1, (digit_visible h).2.1⟩
  · rcases mem_numStr h with h | h <;> revert h <;> decide

/-! ## Labels -/

theorem Visible.append {a b : List Char} (h : Visible a) (hb : ∀ x ∈ b, pySpace x = false ∧ x ≠ '_') :
    Visible (a ++ b) :=
  ⟨by simp [h.1], fun x hx => (List.mem_append.mp hx).elim (h.2 x) (hb x)⟩

theorem rbLabel_good {str : N → List Char} (h : GoodStr str) :
    Function.Injective (rbLabel str) ∧ ∀ x, Visible (rbLabel str x) := by
  constructor
  · rintro ⟨a, c⟩ ⟨b, d⟩ e
    cases c <;> cases d <;> simp only [rbLabel] at e
    · rw [h.inj (List.append_cancel_right e)]
    · exact absurd (List.append_inj_right' e rfl) (by decide)
    · exact absurd (List.append_inj_right' e rfl) (by decide)
    · rw [h.inj (List.append_cancel_right e)]
  · rintro ⟨a, c⟩
    cases c
    · exact (h.visible a).append (b := ['|', 'B']) (by decide)
    · exact (h.visible a).append (b := ['|', 'R']) (by decide)

theorem before_bar {a b c d : List Char} (ha : '|' ∉ a) (hc : '|' ∉ c) (h : a ++ '|' :: b = c ++ '|' :: d) :
    a = c ∧ b = d := by
  induction a generalizing c with
  | nil =>
    cases c with
    | nil => exact ⟨rfl, (List.cons.inj h).2⟩
    | cons y c => exact absurd ((List.cons.inj h).1 ▸ List.mem_cons_self) hc
  | cons x a ih =>
    cases c with
    | nil => exact absurd ((List.cons.inj h).1 ▸ List.mem_cons_self) ha
    | cons y c =>
      obtain ⟨h1, h2⟩ := List.cons.inj h
      obtain ⟨h3, h4⟩ := ih (fun m => ha (List.mem_cons_of_mem _ m)) (fun m => hc (List.mem_cons_of_mem _ m)) h2
      exact ⟨by rw [h1, h3], h4⟩

theorem treapLabel_good {str : N → List Char} {strP : P → List Char} (h : GoodStr str) (hP : GoodStr strP) :
    Function.Injective (treapLabel true str strP) ∧ ∀ x, Visible (treapLabel true str strP x) := by
  constructor
  · rintro ⟨a, p⟩ ⟨b, q⟩ e
    simp only [treapLabel, if_true, List.append_assoc, List.cons_append, List.nil_append] at e
    obtain ⟨h1, h2⟩ := before_bar (h.bar a) (h.bar b) e
    rw [h.inj h1, hP.inj (List.cons.inj (List.cons.inj h2).2).2]
  · rintro ⟨a, p⟩
    simp only [treapLabel, if_true, List.append_assoc]
    refine (h.visible a).append fun x hx => ?_
    rcases List.mem_append.mp hx with hx | hx
    · clear * - hx; revert x; decide
    · exact (hP.visible p).2 x hx

end Extra
