import Verif.Props.Tries
import Verif.Props.Radix

/-!
# Which strings the tries refuse: C60, C62

`trSpec` and `radSpec` say that blank strings are refused with the model's own `blank`; here it is said with a list of the
characters for which Python's `str.isspace` is true.
-/

namespace Extra

/-- the characters for which `str.isspace` is true -/
def spaceCodes : List Nat :=
  [9, 10, 11, 12, 13, 28, 29, 30, 31, 32, 133, 160, 5760, 8192, 8193, 8194, 8195, 8196, 8197, 8198, 8199, 8200, 8201, 8202,
   8232, 8233, 8239, 8287, 12288]

theorem pySpace_iff (c : Char) : pySpace c = true ↔ c.toNat ∈ spaceCodes := by
  simp only [pySpace, spaceCodes, Bool.or_eq_true, Bool.and_eq_true, decide_eq_true_eq, List.mem_cons, List.not_mem_nil,
    or_false]
  omega

theorem blank_iff (w : Word) : blank w = true ↔ ∀ c ∈ w, c.toNat ∈ spaceCodes := by
  simp only [blank, List.all_eq_true, pySpace_iff]

/-- **C60, which strings are refused.** After any history `insert` of a string into a `Trie` raises `ValueError` exactly if it
has no visible character; the trie is not changed then. -/
theorem C60_blank (ops : List TrOp) (w : Word) :
    ((trExec false (trAfter ops) (.insert (.str w))).1 = .error .valueError ↔ ∀ c ∈ w, c.toNat ∈ spaceCodes) ∧
    ((trExec false (trAfter ops) (.insert (.str w))).1 = .error .valueError →
      (trExec false (trAfter ops) (.insert (.str w))).2 = trAfter ops) := by
  constructor
  · rw [(trExec_step (trAfter_inv ops) _).1, ← blank_iff]
    cases hb : blank w <;> simp only [trSpec, hb, if_true, Bool.false_eq_true, if_false, iff_false]
    split_ifs <;> simp
  · intro h
    simp only [trExec] at h ⊢
    split at h
    · cases h
    · rfl

/-- **C62, which strings are refused**: the same for a `RadixTrie`. -/
theorem C62_blank (ops : List TrOp) (w : Word) :
    ((trExec true (radAfter ops) (.insert (.str w))).1 = .error .valueError ↔ ∀ c ∈ w, c.toNat ∈ spaceCodes) ∧
    ((trExec true (radAfter ops) (.insert (.str w))).1 = .error .valueError →
      (trExec true (radAfter ops) (.insert (.str w))).2 = radAfter ops) := by
  constructor
  · rw [(radExec_step (radAfter_inv ops) _).1, ← blank_iff]
    cases hb : blank w <;> simp only [radSpec, hb, if_true, Bool.false_eq_true, if_false, iff_false]
    split_ifs <;> simp
  · intro h
    simp only [trExec] at h ⊢
    split at h
    · cases h
    · rfl

/-- a string of white space, one with a visible character, the empty one -/
example : (∀ c ∈ " \t\n".toList, c.toNat ∈ spaceCodes) ∧ ¬(∀ c ∈ " a ".toList, c.toNat ∈ spaceCodes) ∧
    (∀ c ∈ ([] : Word), c.toNat ∈ spaceCodes) := by decide +kernel

end Extra
