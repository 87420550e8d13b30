import Verif.Model.TraceBuffer
/-
`gsl_p::dyn_array`: life of the array and its elements. Memory is a set of blocks of cells; a cell
is raw or holds an object. Placement new on an object, destruction of a raw cell, access to a raw
cell, and release of a block not in use are undefined behaviour.
-/
namespace Phosphor.Dyn

/-- What happened to memory, newest last. Code: dyn_array.h:362-374, dyn_array.h:425-477. -/
inductive Ev
  | alloc (b : Nat)
  | construct (b i : Nat)
  | destroy (b i : Nat)
  | free (b : Nat)
  deriving DecidableEq, Repr

/-- Exceptions: of `__allocate`, of `operator new`, of the constructor of an element. Code:
dyn_array.h:362-369, dyn_array.h:425-467. -/
inductive Err
  | outOfRange
  | badAlloc
  | element
  deriving DecidableEq, Repr

/-- The heap. Code: dyn_array.h:362-374. -/
structure Heap (α : Type) where
  block : Nat → Option (List (Option α))
  next : Nat
  log : List Ev

/-- The members `__size_` and `__base_` (dyn_array.h:358-359). -/
structure Arr where
  size : Nat
  base : Option Nat
  deriving DecidableEq, Repr

/-- Result of an operation on the heap. Code: dyn_array.h:425-501. -/
inductive Out (σ β : Type)
  | ok (a : β) (h : σ)
  | throw (e : Err) (h : σ)
  | ub
  deriving DecidableEq, Repr

/-- Result of evaluating the initialiser of one element. Code: dyn_array.h:425-467. -/
inductive Init (α : Type)
  | value (a : α)
  | throws
  | ub
  deriving DecidableEq, Repr

variable {α : Type}

/-- `::new (__data) value_type (…)` at cell `i` (dyn_array.h:432, 442, 454, 466). -/
def place (h : Heap α) (base : Option Nat) (i : Nat) (x : Init α) : Out (Heap α) Unit :=
  match base with
  | none => .ub
  | some b =>
    match h.block b with
    | none => .ub
    | some cells =>
      match cells[i]?, x with
      | some none, .value a =>
        .ok () { h with block := setf h.block b (some (cells.set i (some a))), log := h.log ++ [.construct b i] }
      | some none, .throws => .throw .element h
      | _, _ => .ub

/-- The loop of the constructors: `k` more elements; an exception leaves `__size_` at the number
of elements constructed (dyn_array.h:431-432, 441-442, 453-454, 465-466). -/
def constructLoop (init : Heap α → Nat → Init α) : Nat → Arr → Heap α → Option Err × Option (Arr × Heap α)
  | 0, d, h => (none, some (d, h))
  | k + 1, d, h =>
    match place h d.base d.size (init h d.size) with
    | .ok () h' => constructLoop init k { d with size := d.size + 1 } h'
    | .throw e h' => (some e, some (d, h'))
    | .ub => (none, none)

/-- `(--__data)->_Tp::~_Tp()` at cell `i` (dyn_array.h:475). -/
def destroyAt (h : Heap α) (base : Option Nat) (i : Nat) : Option (Heap α) :=
  match base with
  | none => none
  | some b =>
    match h.block b with
    | none => none
    | some cells =>
      match cells[i]? with
      | some (some _) =>
        some { h with block := setf h.block b (some (cells.set i none)), log := h.log ++ [.destroy b i] }
      | _ => none

/-- The loop of the destructor, from the last element to the first (dyn_array.h:473-475). -/
def destroyLoop (base : Option Nat) : Nat → Heap α → Option (Heap α)
  | 0, h => some h
  | k + 1, h =>
    match destroyAt h base k with
    | some h' => destroyLoop base k h'
    | none => none

/-- `__deallocate` (dyn_array.h:371-374): nothing for a null pointer. -/
def deallocate (h : Heap α) : Option Nat → Option (Heap α)
  | none => some h
  | some b =>
    match h.block b with
    | none => none
    | some _ => some { h with block := setf h.block b none, log := h.log ++ [.free b] }

/-- `~dyn_array` (dyn_array.h:469-477); `none`: undefined. -/
def destruct (d : Arr) (h : Heap α) : Option (Heap α) :=
  match destroyLoop d.base d.size h with
  | some h' => deallocate h' d.base
  | none => none

/-- The destructor runs when the body of a constructor throws, because the delegated default
constructor has finished (dyn_array.h:360, 427, 437, 447, 459). -/
def unwind {β : Type} (e : Err) (d : Arr) (h : Heap α) : Out (Heap α) β :=
  match destruct d h with
  | some h' => .throw e h'
  | none => .ub

/-- The constructors: they differ in the initialiser of the elements. `newOk`: `operator new`
finds memory. Code: dyn_array.h:425-467. -/
def make (elemSize : BitVec 64) (newOk : Bool) (init : Heap α → Nat → Init α) (c : BitVec 64) (h : Heap α) :
    Out (Heap α) Arr :=
  let d : Arr := ⟨0, none⟩
  match dynAllocate elemSize c with
  | .throw _ => unwind .outOfRange d h
  | .ub => .ub
  | .ok _ =>
    if newOk then
      let b := h.next
      let h : Heap α :=
        { block := setf h.block b (some (List.replicate c.toNat none)), next := b + 1, log := h.log ++ [.alloc b] }
      match constructLoop init c.toNat { d with base := some b } h with
      | (none, some (d, h)) => .ok d h
      | (some e, some (d, h)) => unwind e d h
      | (_, none) => .ub
    else unwind .badAlloc d h

/-- Reading cell `i`: `data()[i]` (dyn_array.h:406-407). -/
def get (d : Arr) (h : Heap α) (i : Nat) : Init α :=
  match d.base with
  | none => .ub
  | some b =>
    match h.block b with
    | none => .ub
    | some cells =>
      match cells[i]? with
      | some (some a) => .value a
      | _ => .ub

/-- Copy construction of an element of the source; `copy a` is `none` if it throws. Code:
dyn_array.h:453-454, dyn_array.h:465-466. -/
def copyInit (copy : α → Option α) (src : Arr) (h : Heap α) (i : Nat) : Init α :=
  match get src h i with
  | .value a => match copy a with
    | some a' => .value a'
    | none => .throws
  | .throws => .throws
  | .ub => .ub

/-- `dyn_array(size_type)` (dyn_array.h:425-433); `mk i` is `none` if the default constructor of
element `i` throws. -/
def makeDefault (elemSize : BitVec 64) (newOk : Bool) (mk : Nat → Option α) (c : BitVec 64) :=
  make elemSize newOk (fun _ i => match mk i with | some a => .value a | none => .throws) c

/-- `dyn_array(size_type, const value_type&)` (dyn_array.h:435-443). -/
def makeFill (elemSize : BitVec 64) (newOk : Bool) (copy : α → Option α) (c : BitVec 64) (v : α) :=
  make elemSize newOk (fun _ _ => match copy v with | some a => .value a | none => .throws) c

/-- `dyn_array(std::initializer_list)` (dyn_array.h:445-455). -/
def makeList (elemSize : BitVec 64) (newOk : Bool) (copy : α → Option α) (l : List α) :=
  make elemSize newOk (fun _ i => match l[i]? with
    | some v => (match copy v with | some a => .value a | none => .throws)
    | none => .ub) (BitVec.ofNat 64 l.length)

/-- `dyn_array(const dyn_array&)` (dyn_array.h:457-467). -/
def makeCopy (elemSize : BitVec 64) (newOk : Bool) (copy : α → Option α) (src : Arr) :=
  make elemSize newOk (copyInit copy src) (BitVec.ofNat 64 src.size)

/-- `at` (dyn_array.h:479-501). -/
def «at» (d : Arr) (h : Heap α) (i : BitVec 64) : Res α :=
  match dynAt (BitVec.ofNat 64 d.size) i with
  | .ok i => match get d h i.toNat with
    | .value a => .ok a
    | _ => .ub
  | .throw e => .throw e
  | .ub => .ub

/-- `front` (dyn_array.h:409-410). -/
def front (d : Arr) (h : Heap α) : Init α := get d h 0

/-- `back` (dyn_array.h:411-412): index `__size_-1`, in 64-bit arithmetic. -/
def back (d : Arr) (h : Heap α) : Init α := get d h (BitVec.ofNat 64 d.size - 1).toNat

/-- Assignment to element `i` through a reference (dyn_array.h:406, 422). -/
def assign (d : Arr) (h : Heap α) (i : Nat) (a : α) : Option (Heap α) :=
  match d.base with
  | none => none
  | some b =>
    match h.block b with
    | none => none
    | some cells =>
      match cells[i]? with
      | some (some _) => some { h with block := setf h.block b (some (cells.set i (some a))) }
      | _ => none

/-- `std::fill_n(begin(), k, v)` from element `i` on (dyn_array.h:422). -/
def fillFrom (d : Arr) (v : α) : Nat → Nat → Heap α → Option (Heap α)
  | 0, _, h => some h
  | k + 1, i, h =>
    match assign d h i v with
    | some h' => fillFrom d v k (i + 1) h'
    | none => none

/-- `fill` (dyn_array.h:422). -/
def fill (d : Arr) (v : α) (h : Heap α) : Option (Heap α) := fillFrom d v d.size 0 h

/-- Reading from `begin() + i` to `end()`, `k` elements (dyn_array.h:386-391). -/
def readFrom (d : Arr) (h : Heap α) : Nat → Nat → Option (List α)
  | 0, _ => some []
  | k + 1, i =>
    match get d h i with
    | .value a => (readFrom d h k (i + 1)).map (a :: ·)
    | _ => none

/-- Reading from `begin()` to `end()` (dyn_array.h:386-391). -/
def readAll (d : Arr) (h : Heap α) : Option (List α) := readFrom d h d.size 0

/-- Reading from `rbegin()` to `rend()`: a reverse iterator with base `i` refers to element
`i - 1` (dyn_array.h:393-398). -/
def readBack (d : Arr) (h : Heap α) : Nat → Option (List α)
  | 0 => some []
  | i + 1 =>
    match get d h i with
    | .value a => (readBack d h i).map (a :: ·)
    | _ => none

end Phosphor.Dyn
