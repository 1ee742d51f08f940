import Verif.Lists.LinkedList

/-! # Execution lemmas for the heap monad (no property content) -/

namespace Extra
variable {V X α β : Type}

theorem run_bind (m : M V X α) (f : α → M V X β) (h : Heap V X) :
    (m >>= f) h = match m h with
      | (.ok a, h') => f a h'
      | (.error e, h') => (.error e, h') := rfl

theorem run_bind_ok {m : M V X α} {f : α → M V X β} {h h' : Heap V X} {a : α}
    (e : m h = (.ok a, h')) : (m >>= f) h = f a h' := by rw [run_bind, e]

theorem run_bind_err {m : M V X α} {f : α → M V X β} {h h' : Heap V X} {e : Err}
    (he : m h = (.error e, h')) : (m >>= f) h = (.error e, h') := by rw [run_bind, he]

@[simp] theorem run_pure (a : α) (h : Heap V X) : M.pure a h = (.ok a, h) := rfl
@[simp] theorem run_throw (e : Err) (h : Heap V X) :
    (M.throw e : M V X α) h = (.error e, h) := rfl
@[simp] theorem run_lift_ok (a : α) (h : Heap V X) : M.lift (.ok a) h = (.ok a, h) := rfl
@[simp] theorem run_lift_err (e : Err) (h : Heap V X) :
    (M.lift (.error e) : M V X α) h = (.error e, h) := rfl
@[simp] theorem run_deref_some (a : Addr) (h : Heap V X) : deref (some a) h = (.ok a, h) := rfl
@[simp] theorem run_deref_none (h : Heap V X) : deref none h = (.error .attributeError, h) := rfl
@[simp] theorem run_getData (a : Addr) (h : Heap V X) :
    getData (some a) h = (.ok (h.node a).data, h) := rfl
@[simp] theorem run_getNext (a : Addr) (h : Heap V X) :
    getNext (some a) h = (.ok (h.node a).next, h) := rfl
@[simp] theorem run_getPrev (a : Addr) (h : Heap V X) :
    getPrev (some a) h = (.ok (h.node a).prev, h) := rfl
@[simp] theorem run_setNextRaw (a : Addr) (b : Option Addr) (h : Heap V X) :
    setNextRaw a b h = (.ok (), h.setNode a { h.node a with next := b }) := rfl
@[simp] theorem run_setPrevRaw (a : Addr) (b : Option Addr) (h : Heap V X) :
    setPrevRaw a b h = (.ok (), h.setNode a { h.node a with prev := b }) := rfl
@[simp] theorem run_setDataRaw (a : Addr) (d : Option V) (h : Heap V X) :
    setDataRaw a d h = (.ok (), h.setNode a { h.node a with data := d }) := rfl
@[simp] theorem run_getList (l : Addr) (h : Heap V X) : getList l h = (.ok (h.lobj l), h) := rfl
@[simp] theorem run_setHead (l : Addr) (p : Option Addr) (h : Heap V X) :
    setHead l p h = (.ok (), h.setList l { h.lobj l with head := p }) := rfl
@[simp] theorem run_setTail (l : Addr) (p : Option Addr) (h : Heap V X) :
    setTail l p h = (.ok (), h.setList l { h.lobj l with tail := p }) := rfl
@[simp] theorem run_setLength (l : Addr) (n : Nat) (h : Heap V X) :
    setLength l n h = (.ok (), h.setList l { h.lobj l with length := n }) := rfl

@[simp] theorem upd_same {β : Type} (f : Addr → β) (a : Addr) (b : β) : upd f a b a = b := by
  simp [upd]
theorem upd_ne {β : Type} (f : Addr → β) {a x : Addr} (b : β) (hx : x ≠ a) :
    upd f a b x = f x := by simp [upd, hx]

@[simp] theorem setNode_nNodes (h : Heap V X) (a : Addr) (n : Node V X) :
    (h.setNode a n).nNodes = h.nNodes := rfl
@[simp] theorem setNode_nLists (h : Heap V X) (a : Addr) (n : Node V X) :
    (h.setNode a n).nLists = h.nLists := rfl
@[simp] theorem setNode_lobj (h : Heap V X) (a : Addr) (n : Node V X) :
    (h.setNode a n).lobj = h.lobj := rfl
@[simp] theorem setNode_node (h : Heap V X) (a : Addr) (n : Node V X) :
    (h.setNode a n).node = upd h.node a n := rfl
@[simp] theorem setList_nNodes (h : Heap V X) (a : Addr) (o : LObj) :
    (h.setList a o).nNodes = h.nNodes := rfl
@[simp] theorem setList_nLists (h : Heap V X) (a : Addr) (o : LObj) :
    (h.setList a o).nLists = h.nLists := rfl
@[simp] theorem setList_node (h : Heap V X) (a : Addr) (o : LObj) :
    (h.setList a o).node = h.node := rfl
@[simp] theorem setList_lobj (h : Heap V X) (a : Addr) (o : LObj) :
    (h.setList a o).lobj = upd h.lobj a o := rfl

end Extra
