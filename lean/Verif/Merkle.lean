import Verif.Bytes

/-!
# `enclave/merkle`: the in-memory Merkle tree

Nodes and leaves live at addresses. Touching a node that is not (or no longer) allocated, a null pointer or a slot outside
of an array is undefined behaviour; so is freeing a node that still has children, since their parent pointers would
dangle. The `hashes_` arrays of the nodes and the `roothash_` of the tree are kept in one memory `mem`, addressed by what
`hptr_` points to. Hashes are of any type `α`, `H` is the keyed SipHash over one array of hashes (`sip_full.Hash8`),
`zero` is `zero_hash`. Addresses of new nodes are never reused, so that every use of a dangling pointer shows.
Loops along parent pointers get as fuel the depth of the tree and running out of it is `ub`: it stands for a loop.
Metrics and logging are left out.
-/

namespace Svr.Merkle

/-- `MERKLE_NODE_SIZE` (enclave/merkle/merkle.h:26). -/
def width : Nat := 5

/-- A `Part*`: a node or a leaf. -/
inductive Ptr where
  | node (n : Nat)
  | leaf (l : Nat)
deriving DecidableEq, Repr

/-- A `Hash*`: `&roothash_` of the tree or `&hashes_[i]` of a node. -/
inductive HPtr where
  | root
  | slot (n i : Nat)
deriving DecidableEq, Repr

/-- `Node` (enclave/merkle/merkle.h:216-262), without `hashes_`. The flags are two booleans. -/
structure Node where
  parent : Option Nat
  hp : HPtr
  ch : List (Option Ptr)
  isRoot : Bool
  isCurr : Bool
deriving DecidableEq, Repr

/-- `Leaf` (enclave/merkle/merkle.h:163-205). Both are null after the leaf was moved from. -/
structure Leaf where
  parent : Option Nat
  hp : Option HPtr
deriving DecidableEq, Repr

/-- `Tree` (enclave/merkle/merkle.h:267-281) and the heap. `height` is the number of times a new root was made; the code
does not store it. -/
structure Tree (α : Type) where
  nodes : Nat → Option Node
  leaves : Nat → Option Leaf
  mem : HPtr → α
  root : Nat
  curr : Nat
  next : Nat
  height : Nat

def upd {β : Type} (f : Nat → β) (a : Nat) (b : β) : Nat → β := fun x => if x = a then b else f x

variable {α : Type} [DecidableEq α]

/-- Following a `Node*`. -/
def getNode (t : Tree α) (n : Nat) : Out Node :=
  match t.nodes n with
  | none => .ub
  | some r => .ok r

def setNode (t : Tree α) (n : Nat) (r : Node) : Tree α := { t with nodes := upd t.nodes n (some r) }

/-- May a `Hash*` be followed? -/
def valid (t : Tree α) : HPtr → Bool
  | .root => true
  | .slot n i => (t.nodes n).isSome && decide (i < width)

def rd (t : Tree α) (h : HPtr) : Out α := if valid t h then .ok (t.mem h) else .ub

def wr (t : Tree α) (h : HPtr) (x : α) : Out (Tree α) :=
  if valid t h then .ok { t with mem := fun k => if k = h then x else t.mem k } else .ub

/-- The `hashes_` of a node, as found in a memory. -/
def hashesIn (m : HPtr → α) (n : Nat) : List α := (List.range width).map fun i => m (.slot n i)

def hashes (t : Tree α) (n : Nat) : List α := hashesIn t.mem n

/-- `Node::Parts` (enclave/merkle/merkle.cc:83-91), `Full`, `Empty` (enclave/merkle/merkle.h:221-222). -/
def Node.parts (r : Node) : Nat := r.ch.countP Option.isSome
def Node.full (r : Node) : Bool := r.parts == width
def Node.empty (r : Node) : Bool := r.parts == 0

section
variable (H : List α → α) (zero : α)

/-- `Node::Update` (enclave/merkle/merkle.cc:53-56), with `ComputeCurrent` (34-36). -/
def updateNode : Nat → Tree α → Nat → Out (Tree α)
  | 0, _, _ => .ub
  | f + 1, t, n => do
    let r ← getNode t n
    let t ← wr t r.hp (H (hashes t n))
    match r.parent with
    | none => .ok t
    | some p => updateNode f t p

/-- `Node::Insert` (enclave/merkle/merkle.cc:93-102) of a part whose parent is `pp`. -/
def insert (t : Tree α) (n : Nat) (x : Ptr) (pp : Nat) : Out (Tree α × HPtr) := do
  let r ← getNode t n
  Out.check (pp == n)
  match r.ch.idxOf? none with
  | none => .abort
  | some i => .ok (setNode t n { r with ch := r.ch.set i (some x) }, .slot n i)

/-- `Node::Remove` (enclave/merkle/merkle.cc:58-68). -/
def remove (t : Tree α) (n : Nat) (x : Ptr) : Out (Tree α) := do
  let r ← getNode t n
  match r.ch.idxOf? (some x) with
  | none => .abort
  | some i => do
    let t := setNode t n { r with ch := r.ch.set i none }
    let t ← wr t (.slot n i) zero
    updateNode H (t.height + 1) t n

/-- Returning memory of a node; its `children_` must be gone. -/
def freeNode (t : Tree α) (n : Nat) : Out (Tree α) := do
  let r ← getNode t n
  if r.empty then .ok { t with nodes := upd t.nodes n none } else .ub

/-- `Part::~Part` (enclave/merkle/merkle.cc:167-175) of a part `x` with that `parent_`; `delete parent_` runs `~Part` of
the node and then frees it. -/
def destroyPart : Nat → Tree α → Option Nat → Ptr → Out (Tree α)
  | 0, _, _, _ => .ub
  | _ + 1, t, none, _ => .ok t
  | f + 1, t, some p, x => do
    let t ← remove H zero t p x
    let r ← getNode t p
    if r.empty && !r.isRoot && !r.isCurr then do
      let t ← destroyPart f t r.parent (.node p)
      freeNode t p
    else .ok t

/-- The memory of a node after `Node::Init` (enclave/merkle/merkle.cc:38-43). -/
def initMem (t : Tree α) (n : Nat) : HPtr → α := fun h =>
  match h with
  | .root => t.mem .root
  | .slot m i => if m = n then zero else t.mem (.slot m i)

/-- `Node::Node(Node* parent)` (enclave/merkle/merkle.cc:45-47, 27-29). -/
def newNode (t : Tree α) (p : Nat) : Out (Tree α × Nat) := do
  let n := t.next
  let (t, hp) ← insert t p (.node n) p
  .ok ({ t with nodes := upd t.nodes n (some { parent := some p, hp := hp, ch := List.replicate width none, isRoot := false, isCurr := false }),
                mem := initMem zero t n, next := n + 1 }, n)

/-- `Node::Node(Hash* hptr)` with `&roothash_` (enclave/merkle/merkle.cc:49-51, 30). -/
def newRootNode (t : Tree α) : Tree α × Nat :=
  let n := t.next
  ({ t with nodes := upd t.nodes n (some { parent := none, hp := .root, ch := List.replicate width none, isRoot := false, isCurr := false }),
            mem := initMem zero t n, next := n + 1 }, n)

/-- `Tree::CurrentWithSpace`, looking for a node with space (enclave/merkle/merkle.cc:114-116). -/
def findSpace : Nat → Tree α → Nat → Nat → Out (Nat × Nat)
  | 0, _, _, _ => .ub
  | f + 1, t, n, i => do
    if n = t.root then .ok (n, i) else do
      let r ← getNode t n
      if r.full then
        match r.parent with
        | none => .ub
        | some p => findSpace f t p (i + 1)
      else .ok (n, i)

/-- `Tree::CurrentWithSpace`, making a new root (enclave/merkle/merkle.cc:126-139). -/
def newRoot (t : Tree α) : Out (Tree α) := do
  let (t, nr) := newRootNode zero t
  let r ← getNode t t.root
  let t := setNode t t.root { r with parent := some nr }
  let (t, hp) ← insert t nr (.node t.root) nr
  let r ← getNode t t.root
  let t := setNode t t.root { r with hp := hp }
  let h ← rd t .root
  let t ← wr t hp h
  let r ← getNode t t.root
  let t := setNode t t.root { r with isRoot := false }
  let t := { t with root := nr, height := t.height + 1 }
  let r ← getNode t t.root
  .ok (setNode t t.root { r with isRoot := true })

/-- `Tree::CurrentWithSpace`, building down (enclave/merkle/merkle.cc:142-144). -/
def growDown : Nat → Tree α → Nat → Out (Tree α × Nat)
  | 0, t, n => .ok (t, n)
  | i + 1, t, n => do
    let (t, n) ← newNode zero t n
    growDown i t n

/-- `Tree::CurrentWithSpace`, moving `curr_` (enclave/merkle/merkle.cc:145-149). -/
def setCurr (t : Tree α) (n : Nat) : Out (Tree α) :=
  if t.curr = n then .ok t else do
    let r ← getNode t t.curr
    let t := setNode t t.curr { r with isCurr := false }
    let t := { t with curr := n }
    let r ← getNode t n
    .ok (setNode t n { r with isCurr := true })

/-- Making space at the top if there is none (enclave/merkle/merkle.cc:117-140). -/
def makeSpace (t : Tree α) (n i : Nat) : Out (Tree α × Nat × Nat) := do
  let r ← getNode t n
  if r.full then do
    Out.check (n == t.root)
    let t ← newRoot zero t
    .ok (t, t.root, i + 1)
  else .ok (t, n, i)

/-- `Tree::CurrentWithSpace` (enclave/merkle/merkle.cc:113-151). -/
def currentWithSpace (t : Tree α) : Out (Tree α × Nat) := do
  let (n, i) ← findSpace (t.height + 1) t t.curr 0
  let (t, n, i) ← makeSpace zero t n i
  let (t, n) ← growDown zero i t n
  let t ← setCurr t n
  .ok (t, n)

/-- `Leaf::Leaf(Tree*)` at address `l` (enclave/merkle/merkle.cc:109-111, 27-29). -/
def createLeaf (t : Tree α) (l : Nat) : Out (Tree α) := do
  let (t, n) ← currentWithSpace zero t
  let (t, hp) ← insert t n (.leaf l) n
  .ok { t with leaves := upd t.leaves l (some ⟨some n, some hp⟩) }

/-- Following a `Leaf*`. -/
def getLeaf (t : Tree α) (l : Nat) : Out Leaf :=
  match t.leaves l with
  | none => .ub
  | some r => .ok r

/-- Following a pointer that may be null. -/
def deref {β : Type} : Option β → Out β
  | none => .ub
  | some x => .ok x

/-- `Leaf::Update` (enclave/merkle/merkle.cc:177-180). -/
def updateLeaf (t : Tree α) (l : Nat) (h : α) : Out (Tree α) := do
  let r ← getLeaf t l
  let hp ← deref r.hp
  let t ← wr t hp h
  let p ← deref r.parent
  updateNode H (t.height + 1) t p

/-- `Leaf::Verify`, the loop over the nodes (enclave/merkle/merkle.cc:157-163). -/
def verifyUp : Nat → Tree α → Option Nat → Out Bool
  | 0, _, _ => .ub
  | _ + 1, _, none => .ok true
  | f + 1, t, some n => do
    let r ← getNode t n
    let h ← rd t r.hp
    if H (hashes t n) = h then verifyUp f t r.parent else .ok false

/-- `Leaf::Verify` (enclave/merkle/merkle.cc:153-165). -/
def verify (t : Tree α) (l : Nat) (h : α) : Out Bool := do
  let r ← getLeaf t l
  let hp ← deref r.hp
  let x ← rd t hp
  if h = x then verifyUp H (t.height + 2) t r.parent else .ok false

/-- `Leaf::Leaf(Leaf&&)` at address `b` from the leaf at `a` (enclave/merkle/merkle.cc:182-188), with `Node::Replace` (70-81). -/
def moveLeaf (t : Tree α) (a b : Nat) : Out (Tree α) := do
  let ra ← getLeaf t a
  let p ← deref ra.parent
  let r ← getNode t p
  match r.ch.idxOf? (some (.leaf a)) with
  | none => .abort
  | some i =>
    let t := setNode t p { r with ch := r.ch.set i (some (.leaf b)) }
    .ok { t with leaves := upd (upd t.leaves b (some ⟨some p, some (.slot p i)⟩)) a (some ⟨none, none⟩) }

/-- `Leaf::~Leaf` (enclave/merkle/merkle.cc:211-213, 167-175). -/
def destroyLeaf (t : Tree α) (l : Nat) : Out (Tree α) := do
  let r ← getLeaf t l
  let t := { t with leaves := upd t.leaves l none }
  destroyPart H zero (t.height + 1) t r.parent (.leaf l)

/-- `Tree::Tree` (enclave/merkle/merkle.cc:190-199). -/
def newTree : Out (Tree α) :=
  let t : Tree α := { nodes := fun _ => none, leaves := fun _ => none, mem := fun _ => zero, root := 0, curr := 0, next := 0, height := 0 }
  let (t, n) := newRootNode zero t
  do
    let t := { t with root := n, curr := n }
    let r ← getNode t n
    let t := setNode t n { r with isRoot := true, isCurr := true }
    updateNode H 1 t n

/-- `Tree::~Tree` (enclave/merkle/merkle.cc:201-205). -/
def destroyTree (t : Tree α) : Out (Tree α) := do
  let r ← getNode t t.root
  let t := setNode t t.root { r with isRoot := false }
  let r ← getNode t t.curr
  let t := setNode t t.curr { r with isCurr := false }
  let r ← getNode t t.curr
  let t ← destroyPart H zero (t.height + 1) t r.parent (.node t.curr)
  freeNode t t.curr

/-- What the owner of leaves can do. -/
inductive Op (α : Type) where
  | create (l : Nat)
  | update (l : Nat) (h : α)
  | move (a b : Nat)
  | destroy (l : Nat)
deriving Repr

def step (t : Tree α) : Op α → Out (Tree α)
  | .create l => createLeaf zero t l
  | .update l h => updateLeaf H t l h
  | .move a b => moveLeaf t a b
  | .destroy l => destroyLeaf H zero t l

def run : Tree α → List (Op α) → Out (Tree α)
  | t, [] => .ok t
  | t, o :: os => do run (← step H zero t o) os

end

end Svr.Merkle
