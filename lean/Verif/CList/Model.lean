/-!
# Model of src/data/list.c

Nodes live in a heap: a partial map from addresses to nodes (0 = NULL is never mapped).  Reading or
writing an address with no node is undefined behaviour (`none`), so a use-after-free would show up.
`list->allocator->alloc` is the environment: each inserting call is told which address it gets
(`none` = allocation failure).  Loops over the chain carry fuel; the theorems show that
`length + 1` is always enough, i.e. the loops terminate.  The `list == NULL` argument checks are not
modelled (they return before touching anything); `length` is an unbounded number (wrapping would
need 2^64 live nodes).
-/
namespace Verif.CList

/-- `list_node_t*`; 0 is NULL. -/
abbrev Addr := Nat
/-- `void*` payload; 0 is NULL. -/
abbrev Ptr := Nat

/-- list.c 12-16: `struct list_node_t`. -/
structure Node where
  next : Addr
  data : Ptr
deriving Repr, DecidableEq

/-- list.c 17-23: `list_t`, together with the heap its nodes live in. -/
structure St where
  heap : Addr → Option Node
  head : Addr
  tail : Addr
  length : Nat

/-- Write a node. -/
def setNode (h : Addr → Option Node) (a : Addr) (n : Option Node) : Addr → Option Node :=
  fun x => if x = a then n else h x

/-- list.c 28-43: `list_new`: zeroed. -/
def new : St := ⟨fun _ => none, 0, 0, 0⟩

/-- list.c 81-88: `list_front`. -/
def front (s : St) : Option Ptr :=
  if s.length = 0 then some 0 else (s.heap s.head).map (·.data)

/-- list.c 90-97: `list_back`. -/
def back (s : St) : Option Ptr :=
  if s.length = 0 then some 0 else (s.heap s.tail).map (·.data)

/-- list.c 99-106: `list_back_node`. -/
def backNode (s : St) : Addr := if s.length = 0 then 0 else s.tail

/-- list.c 262-269: `list_next`. -/
def next (s : St) (a : Addr) : Option Addr :=
  if a = 0 then some 0 else (s.heap a).map (·.next)

/-- list.c 66-72: the search loop of `list_contains`. -/
def containsLoop (s : St) (data : Ptr) : Nat → Addr → Option Bool
  | 0, _ => none
  | fuel + 1, a =>
    if a = 0 then some false
    else
      match s.heap a with
      | none => none
      | some n => if n.data = data then some true else containsLoop s data fuel n.next

/-- list.c 60-74: `list_contains`. -/
def contains (s : St) (data : Ptr) : Option Bool :=
  if data = 0 then some false else containsLoop s data (s.length + 1) s.head

/-- list.c 108-128: `list_insert_after`. -/
def insertAfter (s : St) (prev : Addr) (data : Ptr) (alloc : Option Addr) : Option (St × Bool) :=
  if prev = 0 ∨ data = 0 then some (s, false)
  else
    match alloc with
    | none => some (s, false)
    | some a =>
      match s.heap prev with
      | none => none
      | some p =>
        let h := setNode s.heap a (some ⟨p.next, data⟩)
        let h := setNode h prev (some ⟨a, p.data⟩)
        some (⟨h, s.head, if s.tail = prev then a else s.tail, s.length + 1⟩, true)

/-- list.c 130-150: `list_prepend`. -/
def prepend (s : St) (data : Ptr) (alloc : Option Addr) : Option (St × Bool) :=
  if data = 0 then some (s, false)
  else
    match alloc with
    | none => some (s, false)
    | some a =>
      some (⟨setNode s.heap a (some ⟨s.head, data⟩), a, if s.tail = 0 then a else s.tail,
        s.length + 1⟩, true)

/-- list.c 152-177: `list_append`. -/
def append (s : St) (data : Ptr) (alloc : Option Addr) : Option (St × Bool) :=
  if data = 0 then some (s, false)
  else
    match alloc with
    | none => some (s, false)
    | some a =>
      let h := setNode s.heap a (some ⟨0, data⟩)
      if s.tail = 0 then some (⟨h, a, a, s.length + 1⟩, true)
      else
        match h s.tail with
        | none => none
        | some t =>
          some (⟨setNode h s.tail (some ⟨a, t.data⟩), s.head, a, s.length + 1⟩, true)

/-- list.c 280-294: `list_free_node_`: callback on the data, node freed; returns its successor.
`cb`: is a free callback installed.  The data handed to the callback is the last component. -/
def freeNode (cb : Bool) (s : St) (node : Addr) : Option (St × Addr × List Ptr) :=
  match s.heap node with
  | none => none
  | some n =>
    some ({ s with heap := setNode s.heap node none, length := s.length - 1 }, n.next,
      if cb then [n.data] else [])

/-- list.c 195-207: the loop of `list_remove`. -/
def removeLoop (cb : Bool) (s : St) (data : Ptr) :
    Nat → Addr → Addr → Option (St × Bool × List Ptr)
  | 0, _, _ => none
  | fuel + 1, prev, node =>
    if node = 0 then some (s, false, [])
    else
      match s.heap node with
      | none => none
      | some n =>
        if n.data ≠ data then removeLoop cb s data fuel node n.next
        else
          match freeNode cb s node with
          | none => none
          | some (s1, nx, ev) =>
            match s1.heap prev with
            | none => none
            | some p =>
              some ({ s1 with heap := setNode s1.heap prev (some ⟨nx, p.data⟩),
                              tail := if s1.tail = node then prev else s1.tail }, true, ev)

/-- list.c 179-209: `list_remove`. -/
def remove (cb : Bool) (s : St) (data : Ptr) : Option (St × Bool × List Ptr) :=
  if data = 0 ∨ s.length = 0 then some (s, false, [])
  else
    match s.heap s.head with
    | none => none
    | some h =>
      if h.data = data then
        match freeNode cb s s.head with
        | none => none
        | some (s1, nx, ev) =>
          some ({ s1 with tail := if s1.tail = s1.head then nx else s1.tail, head := nx }, true, ev)
      else removeLoop cb s data (s.length + 1) s.head h.next

/-- list.c 217-220: the loop of `list_clear`. -/
def clearLoop (cb : Bool) : Nat → St → Addr → Option (St × List Ptr)
  | 0, _, _ => none
  | fuel + 1, s, node =>
    if node = 0 then some (s, [])
    else
      match freeNode cb s node with
      | none => none
      | some (s1, nx, ev) =>
        match clearLoop cb fuel s1 nx with
        | none => none
        | some (s2, evs) => some (s2, ev ++ evs)

/-- list.c 211-224: `list_clear` (and 45-53 `list_free`, which calls it and frees the list object). -/
def clear (cb : Bool) (s : St) : Option (St × List Ptr) :=
  match clearLoop cb (s.length + 1) s s.head with
  | none => none
  | some (s1, evs) => some ({ s1 with head := 0, tail := 0, length := 0 }, evs)

/-- list.c 232-240: the loop of `list_foreach`.  The user's callback `f` has private state `σ` and
may change the list (e.g. remove the element it is called with).  The successor is read before the
callback runs. Result: list, private state, returned node, data of the calls made. -/
def foreachLoop {σ : Type} (f : σ → St → Ptr → Option (Bool × σ × St)) :
    Nat → σ → St → Addr → Option (St × σ × Addr × List Ptr)
  | 0, _, _, _ => none
  | fuel + 1, st, s, node =>
    if node = 0 then some (s, st, 0, [])
    else
      match s.heap node with
      | none => none
      | some n =>
        match f st s n.data with
        | none => none
        | some (false, st1, s1) => some (s1, st1, node, [n.data])
        | some (true, st1, s1) =>
          match foreachLoop f fuel st1 s1 n.next with
          | none => none
          | some (s2, st2, r, vs) => some (s2, st2, r, n.data :: vs)

/-- list.c 226-242: `list_foreach`. -/
def foreach {σ : Type} (f : σ → St → Ptr → Option (Bool × σ × St)) (st : σ) (s : St) :
    Option (St × σ × Addr × List Ptr) :=
  foreachLoop f (s.length + 1) st s s.head

/-! ## Histories -/

/-- One API call; inserting calls carry the allocator's answer. -/
inductive Op
  | append (d : Ptr) (alloc : Option Addr)
  | prepend (d : Ptr) (alloc : Option Addr)
  | insertAfter (prev : Addr) (d : Ptr) (alloc : Option Addr)
  | remove (d : Ptr)
  | clear
  | length
  | front
  | back
  | backNode
  | contains (d : Ptr)
deriving Repr, DecidableEq

/-- Perform one call: state, result (Booleans as 0/1), data passed to the free callback. -/
def step (cb : Bool) (s : St) : Op → Option (St × Nat × List Ptr)
  | .append d al => (append s d al).map fun r => (r.1, r.2.toNat, [])
  | .prepend d al => (prepend s d al).map fun r => (r.1, r.2.toNat, [])
  | .insertAfter p d al => (insertAfter s p d al).map fun r => (r.1, r.2.toNat, [])
  | .remove d => (remove cb s d).map fun r => (r.1, r.2.1.toNat, r.2.2)
  | .clear => (clear cb s).map fun r => (r.1, 0, r.2)
  | .length => some (s, s.length, [])
  | .front => (front s).map fun r => (s, r, [])
  | .back => (back s).map fun r => (s, r, [])
  | .backNode => some (s, backNode s, [])
  | .contains d => (contains s d).map fun r => (s, r.toNat, [])

/-- A whole history. -/
def run (cb : Bool) : St → List Op → Option (St × List (Nat × List Ptr))
  | s, [] => some (s, [])
  | s, o :: os =>
    match step cb s o with
    | none => none
    | some r =>
      match run cb r.1 os with
      | none => none
      | some q => some (q.1, r.2 :: q.2)

end Verif.CList
